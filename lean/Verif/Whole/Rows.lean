import Verif.Whole.Cones
import Verif.Whole.Unbounded
import Mathlib.Analysis.Convex.Extreme

/-!
# C92: the inequalities of a file after the elimination, and their coordinates

The part of `count` before cdd is called, as a function of its own.  What it delivers are inequalities in new coordinates, such that the affine map back is a bijection between the real
points, identifies the integer points, and so the integer points of all dilations and the vertices.
-/

namespace Verif.Whole

open Verif.Barvinok Verif.Barvinok.Spec Verif.Ti2 Verif.Brion Verif.ExpSubst Verif.Files Verif.Preprocess Matrix

variable {n m d : ℕ}

/-! ## Model -/

/-- Where `count` is before the vertices are computed: ended, or with inequalities in `d` variables. -/
inductive RowStage where
  | ended (e : Ending)
  | rows (d : ℕ) (l : List (Row d))

/-- `projectOutVariables`, ReadPolyhedron.cpp:745–806, with dilation 1. -/
def projectRows (hermite : ℕ) (n : ℕ) (E I : List (Row n)) : RowStage :=
  if E = [] then .rows n I
  else
    match preprocessProblem hermite (fun j : Fin E.length => E.get j) I 0 1 with
    | .count k => .ended (.number k)
    | .notBounded => .ended .notBounded
    | .crash => .ended .undefined
    | .fuel => .ended (.failed .fuel)
    | .reduced d out _ _ _ => .rows d out

/-- `PolyhedronFromHrepMatrix`, ReadPolyhedron.cpp:665–692. -/
def matrixRows (T : Tools) (hermite : ℕ) (M : LMatrix) : RowStage :=
  match splitRows ((T.canonicalize M).colsize - 1) (T.canonicalize M).linset 0 (T.canonicalize M).rows with
  | none => .ended (.failed .abort)
  | some (E, I) => projectRows hermite ((T.canonicalize M).colsize - 1) E I

/-- `read_polyhedron_hairy`, ReadPolyhedron.cpp:640–663, up to the call of `matrixToVerticesOrCones`. -/
def fileRows (T : Tools) (hermite : ℕ) (s : List Char) : RowStage :=
  match Empty.checkEmpty T.lp (tokens s) with
  | none => .ended .undefined
  | some .exit1 => .ended .stop
  | some .undefined => .ended .undefined
  | some (.thrown text) =>
    match scanInt text.toList with
    | some (k, _) => .ended (.number k)
    | none => .ended .stop
  | some .done =>
    match readLatteStyleMatrix s false false false with
    | .error => .ended .stop
    | .outOfBounds => .ended .undefined
    | .ok M => matrixRows T hermite M

/-- The vertex cones come from these inequalities. -/
def conesOf (T : Tools) : RowStage → Stage
  | .ended e => .ended e
  | .rows d l => coneRows T d l

theorem fileCones_rows (T : Tools) (hermite : ℕ) (s : List Char) : fileCones T hermite s = conesOf T (fileRows T hermite s) := by
  unfold fileCones fileRows
  generalize Empty.checkEmpty T.lp (tokens s) = o
  match o with
  | none => rfl
  | some .exit1 => rfl
  | some .undefined => rfl
  | some (.thrown text) =>
    dsimp only
    generalize scanInt text.toList = u
    match u with
    | some (k, _) => rfl
    | none => rfl
  | some .done =>
    dsimp only
    generalize readLatteStyleMatrix s false false false = u
    match u with
    | .error => rfl
    | .outOfBounds => rfl
    | .ok M =>
      dsimp only
      unfold matrixCones matrixRows
      generalize splitRows _ _ _ _ = w
      match w with
      | none => rfl
      | some (E, I) =>
        dsimp only
        unfold projectCones projectRows
        by_cases hE : E = []
        · rw [if_pos hE, if_pos hE]; rfl
        · rw [if_neg hE, if_neg hE]
          generalize preprocessProblem hermite _ I 0 1 = v
          match v with
          | .count k => rfl
          | .notBounded => rfl
          | .crash => rfl
          | .fuel => rfl
          | .reduced d out _ _ _ => rfl

/-! ## Coordinates -/

/-- **Specification.** New coordinates for a set `A`: the affine map `y ↦ p + Σ yⱼ Bⱼ` is a bijection from the polyhedron of the inequalities onto `A`, and integer points correspond to
integer points. -/
structure Coordinates (A : Set (Fin n → ℝ)) (l : List (Row d)) (p : Fin n → ℤ) (B : Fin d → Fin n → ℤ) : Prop where
  inj : Function.Injective (liftReal p B)
  points : liftReal p B '' Polyhedron (pairs l) = A
  lattice : ∀ y : Fin d → ℝ, (∃ z : Fin d → ℤ, y = fun j => (z j : ℝ)) ↔ ∃ w : Fin n → ℤ, liftReal p B y = fun k => (w k : ℝ)

theorem newRows_real {p : Fin n → ℤ} {basis : Fin d → Fin n → ℤ} (y : Fin d → ℝ) (ineqs : List (Row n)) :
    ∀ out, newRows p basis 1 ineqs = some out →
      ((∀ r ∈ out, 0 ≤ (r.b : ℝ) + dot r.a y) ↔ ∀ r ∈ ineqs, 0 ≤ (r.b : ℝ) + dot r.a (liftReal p basis y)) := by
  have key : ∀ r : Row n, ((newRow p basis 1 r).b : ℝ) + dot (newRow p basis 1 r).a y = (r.b : ℝ) + dot r.a (liftReal p basis y) := by
    intro r
    unfold newRow liftReal dot
    push_cast
    simp only [one_mul, mul_add, Finset.sum_add_distrib, Finset.mul_sum, Finset.sum_mul]
    rw [add_assoc, Finset.sum_comm (s := (Finset.univ : Finset (Fin d)))]
    congr 2
    exact Finset.sum_congr rfl fun k _ => Finset.sum_congr rfl fun j _ => by ring
  induction ineqs with
  | nil =>
    intro out h
    simp only [newRows, Option.some.injEq] at h
    subst h
    simp
  | cons r rs ih =>
    intro out h
    rw [newRows] at h
    split at h
    · cases h
    · rename_i hno
      split at h
      · cases h
      · rename_i out' ho
        split at h
        · obtain rfl := Option.some.inj h
          rw [List.forall_mem_cons, List.forall_mem_cons, ih out' ho, key]
        · rename_i h0
          obtain rfl := Option.some.inj h
          rw [List.forall_mem_cons, ih out' ho]
          rw [not_not] at h0
          have hz : ∀ j, (newRow p basis 1 r).a j = 0 := fun j =>
            abs_eq_zero.1 ((Finset.sum_eq_zero_iff_of_nonneg fun j _ => abs_nonneg _).1 h0 j (Finset.mem_univ j))
          have hb : 0 ≤ (newRow p basis 1 r).b := by
            by_contra hlt
            exact hno ⟨h0, not_le.1 hlt⟩
          refine ⟨fun h => ⟨?_, h⟩, fun h => h.2⟩
          rw [← key]
          unfold dot
          simp only [hz, Int.cast_zero, zero_mul, Finset.sum_const_zero, add_zero]
          exact_mod_cast hb

/-- The elimination delivers coordinates. -/
theorem reduced_coordinates {fuel : ℕ} {E I : List (Row n)} {cost : Fin n → ℤ} (hi : I ≠ []) (hmn : E.length ≤ n) (hind : IndependentR E)
    {out : List (Row d)} {p : Fin n → ℤ} {B : Fin d → Fin n → ℤ} {newCost : Fin d → ℤ}
    (hrun : preprocessProblem fuel (fun j : Fin E.length => E.get j) I cost 1 = .reduced d out p B newCost) :
    Coordinates (Polyhedron (both E I)) out p B := by
  have hp := (c67_lattice_points hi hmn (Or.inr hind.int) hrun).2.2.1
  rw [preprocess_cases hi hmn] at hrun
  split at hrun
  · simp at hrun
  rename_i s hs'
  have h := ihermite_spec hs'
  rw [eliminate_eq hmn h] at hrun
  split at hrun
  · simp at hrun
  split at hrun
  · simp at hrun
  rename_i out' hout
  cases out' with
  | nil => simp [checkRows] at hrun
  | cons r rs =>
    simp only [checkRows] at hrun
    cases hrun
    generalize hP : forward hmn s.S.transpose (List.finRange E.length) 0 s.rhs ᵥ* s.U = P at *
    have hpe : ∀ r ∈ E, (r.b : ℝ) + dot r.a (fun k => (P k : ℝ)) = 0 := by
      intro r hr
      obtain ⟨j, rfl⟩ := List.get_of_mem hr
      have h2 := hp j
      unfold Row.eval at h2
      unfold dot
      have : (((1 * (E.get j).b + ∑ k, (E.get j).a k * P k : ℤ)) : ℝ) = 0 := by exact_mod_cast h2
      push_cast at this
      linarith
    have hlift : ∀ (f : Vec n) (y : Fin (n - s.crk) → ℝ), dot f (liftReal P (latticeBasis s h.hn) y) =
        dot f (fun k => (P k : ℝ)) + ∑ j, y j * ((∑ k, f k * latticeBasis s h.hn j k : ℤ) : ℝ) := by
      intro f y
      unfold dot liftReal
      simp only [mul_add, Finset.sum_add_distrib, Finset.mul_sum, Int.cast_sum, Int.cast_mul]
      rw [Finset.sum_comm (s := (Finset.univ : Finset (Fin (n - s.crk))))]
      congr 1
      exact Finset.sum_congr rfl fun k _ => Finset.sum_congr rfl fun j _ => by ring
    have heq : ∀ y : Fin (n - s.crk) → ℝ, ∀ r ∈ E, (r.b : ℝ) + dot r.a (liftReal P (latticeBasis s h.hn) y) = 0 := by
      intro y r hr
      rw [hlift]
      obtain ⟨j, rfl⟩ := List.get_of_mem hr
      have h1 := hpe _ hr
      have h2 : ∀ i, ∑ k, (E.get j).a k * latticeBasis s h.hn i k = 0 := fun i => basis_kernel h i j
      simp only [h2, Int.cast_zero, mul_zero, Finset.sum_const_zero, add_zero]
      exact h1
    have hinj : Function.Injective (liftReal P (latticeBasis s h.hn)) := by
      intro y y' hyy
      have h0 : (fun j => y j - y' j) = 0 := by
        refine latticeBasis_real s h.hn h.unimodular _ fun k => ?_
        have h1 : liftReal P (latticeBasis s h.hn) y k = liftReal P (latticeBasis s h.hn) y' k := congrFun hyy k
        unfold liftReal at h1
        simp only [sub_mul, Finset.sum_sub_distrib]
        linarith
      funext j
      have := congrFun h0 j
      simp only [Pi.zero_apply] at this
      linarith
    refine ⟨hinj, ?_, fun y => ⟨?_, ?_⟩⟩
    · ext x
      have hpoly : ∀ y : Fin (n - s.crk) → ℝ, y ∈ Polyhedron (pairs (r :: rs)) ↔ ∀ r' ∈ r :: rs, 0 ≤ (r'.b : ℝ) + dot r'.a y := by
        intro y
        show (∀ q ∈ pairs (r :: rs), 0 ≤ (q.1 : ℝ) + dot q.2 y) ↔ _
        unfold pairs
        simp only [List.mem_map, forall_exists_index, and_imp, forall_apply_eq_imp_iff₂]
      rw [mem_both]
      constructor
      · rintro ⟨y, hy, rfl⟩
        exact ⟨heq y, (newRows_real y I _ hout).1 ((hpoly y).1 hy)⟩
      · rintro ⟨hx1, hx2⟩
        have hsplit : ∀ f : Vec n, dot f (fun k => x k - (P k : ℝ)) = dot f x - dot f (fun k => (P k : ℝ)) := by
          intro f
          unfold dot
          rw [← Finset.sum_sub_distrib]
          exact Finset.sum_congr rfl fun k _ => by ring
        obtain ⟨y, hy⟩ := latticeBasis_spans h (fun k => x k - (P k : ℝ)) (fun j => by
          rw [hsplit]
          have h1 := hx1 _ (List.get_mem E j)
          have h2 := hpe _ (List.get_mem E j)
          linarith)
        have hxy : liftReal P (latticeBasis s h.hn) y = x := by
          funext k
          unfold liftReal
          rw [← hy k]
          ring
        exact ⟨y, (hpoly y).2 ((newRows_real y I _ hout).2 (by rw [hxy]; exact hx2)), hxy⟩
    · rintro ⟨z, rfl⟩
      refine ⟨fun k => P k + ∑ j, z j * latticeBasis s h.hn j k, ?_⟩
      funext k
      unfold liftReal
      push_cast
      rfl
    · rintro ⟨w, hw⟩
      have hwe : ∀ j : Fin E.length, (E.get j).eval 1 w = 0 := by
        intro j
        have h1 := heq y _ (List.get_mem E j)
        rw [hw] at h1
        unfold dot at h1
        unfold Row.eval
        have : (((1 * (E.get j).b + ∑ k, (E.get j).a k * w k : ℤ)) : ℝ) = 0 := by
          push_cast
          linarith
        exact_mod_cast this
      obtain ⟨z, -, hz⟩ := (lift_bijective h P hp 1).surjOn hwe
      refine ⟨z, hinj ?_⟩
      rw [hw]
      funext k
      have := congrFun hz k
      unfold Preprocess.lift at this
      unfold liftReal
      rw [← this]
      push_cast
      ring

/-- Without equations the coordinates stay. -/
theorem id_coordinates (I : List (Row n)) : Coordinates (Polyhedron (both [] I)) I 0 (fun j k => if j = k then 1 else 0) := by
  have hid : ∀ y : Fin n → ℝ, liftReal (0 : Fin n → ℤ) (fun j k => if j = k then 1 else 0) y = y := by
    intro y
    funext k
    unfold liftReal
    simp
  refine ⟨fun y y' h => ?_, ?_, fun y => ?_⟩
  · rwa [hid, hid] at h
  · have : both ([] : List (Row n)) I = pairs I := rfl
    rw [this]
    ext x
    constructor
    · rintro ⟨y, hy, rfl⟩
      rwa [hid]
    · intro hx
      exact ⟨x, hx, hid x⟩
  · rw [hid]

/-! ## Consequences -/

/-- **Specification.** The `t`-fold dilation of the inequalities `b + a · x ≥ 0`: `t b + a · x ≥ 0`. -/
def dilateRow (t : ℕ) (r : Row d) : Row d := ⟨t * r.b, r.a⟩

/-- Integer points of all dilations correspond. -/
theorem Coordinates.ncard {A : Set (Fin n → ℝ)} {l : List (Row d)} {p : Fin n → ℤ} {B : Fin d → Fin n → ℤ} (h : Coordinates A l p B) (t : ℕ) (ht : 1 ≤ t) :
    (feasible (l.map (dilateRow t))).ncard = {w : Fin n → ℤ | (fun k => (w k : ℝ) / t) ∈ A}.ncard := by
  have ht0 : (t : ℝ) ≠ 0 := by
    have : (1 : ℝ) ≤ t := by exact_mod_cast ht
    linarith
  have htp : (0 : ℝ) < t := by
    have : (1 : ℝ) ≤ t := by exact_mod_cast ht
    linarith
  have hfe : ∀ z : Fin d → ℤ, z ∈ feasible (l.map (dilateRow t)) ↔ (fun j => (z j : ℝ) / t) ∈ Polyhedron (pairs l) := by
    intro z
    show (∀ r ∈ l.map (dilateRow t), 0 ≤ r.eval 1 z) ↔ ∀ q ∈ pairs l, 0 ≤ (q.1 : ℝ) + dot q.2 fun j => (z j : ℝ) / t
    unfold pairs
    simp only [List.mem_map, forall_exists_index, and_imp, forall_apply_eq_imp_iff₂]
    refine forall_congr' fun r => imp_congr_right fun _ => ?_
    have e : (((dilateRow t r).eval 1 z : ℤ) : ℝ) = t * ((r.b : ℝ) + dot r.a fun j => (z j : ℝ) / t) := by
      unfold dilateRow Row.eval dot
      push_cast
      rw [mul_add, Finset.mul_sum, one_mul]
      congr 1
      refine Finset.sum_congr rfl fun j _ => ?_
      field_simp
    constructor
    · intro h
      have h' : (0 : ℝ) ≤ (((dilateRow t r).eval 1 z : ℤ) : ℝ) := by exact_mod_cast h
      rw [e] at h'
      exact nonneg_of_mul_nonneg_right h' htp
    · intro h
      have h' : (0 : ℝ) ≤ (((dilateRow t r).eval 1 z : ℤ) : ℝ) := by
        rw [e]
        exact mul_nonneg htp.le h
      exact_mod_cast h'
  have hl : ∀ z : Fin d → ℤ, (fun k => ((lift (t : ℤ) p B z k : ℤ) : ℝ) / t) = liftReal p B fun j => (z j : ℝ) / t := by
    intro z
    funext k
    unfold Preprocess.lift liftReal
    push_cast
    rw [add_div, mul_div_cancel_left₀ _ ht0, Finset.sum_div]
    congr 1
    exact Finset.sum_congr rfl fun j _ => by ring
  have hbij : Set.BijOn (lift (t : ℤ) p B) (feasible (l.map (dilateRow t))) {w : Fin n → ℤ | (fun k => (w k : ℝ) / t) ∈ A} := by
    refine ⟨?_, ?_, ?_⟩
    · intro z hz
      show (fun k => ((lift (t : ℤ) p B z k : ℤ) : ℝ) / t) ∈ A
      rw [hl, ← h.points]
      exact ⟨_, (hfe z).1 hz, rfl⟩
    · intro z _ z' _ hzz
      have h1 : liftReal p B (fun j => (z j : ℝ) / t) = liftReal p B fun j => (z' j : ℝ) / t := by
        rw [← hl, ← hl, hzz]
      funext j
      have h2 := congrFun (h.inj h1) j
      have h3 : (z j : ℝ) = z' j := by
        simpa [div_left_inj' ht0] using h2
      exact_mod_cast h3
    · intro w hw
      have hw : (fun k => (w k : ℝ) / t) ∈ A := hw
      rw [← h.points] at hw
      obtain ⟨y, hy, hyw⟩ := hw
      obtain ⟨z, hz⟩ := (h.lattice fun j => t * y j).2 ⟨fun k => p k + w k - t * p k, by
        funext k
        have h1 := congrFun hyw k
        unfold liftReal at h1 ⊢
        push_cast
        have h2 : ∑ j, t * y j * (B j k : ℝ) = t * ∑ j, y j * (B j k : ℝ) := by
          rw [Finset.mul_sum]
          exact Finset.sum_congr rfl fun j _ => by ring
        rw [h2]
        have h3 : (∑ j, y j * (B j k : ℝ)) = (w k : ℝ) / t - p k := by linarith
        rw [h3]
        field_simp
        ring⟩
      have hzy : (fun j => (z j : ℝ) / t) = y := by
        funext j
        have h1 : t * y j = (z j : ℝ) := congrFun hz j
        rw [← h1]
        field_simp
      refine ⟨z, (hfe z).2 (by rw [hzy]; exact hy), ?_⟩
      funext k
      have h1 := congrFun (hl z) k
      rw [hzy, hyw] at h1
      have h2 : ((lift (t : ℤ) p B z k : ℤ) : ℝ) = w k := by
        simpa [div_left_inj' ht0] using h1
      exact_mod_cast h2
  rw [← hbij.image_eq, hbij.injOn.ncard_image]

/-- Vertices correspond. -/
theorem Coordinates.extreme {A : Set (Fin n → ℝ)} {l : List (Row d)} {p : Fin n → ℤ} {B : Fin d → Fin n → ℤ} (h : Coordinates A l p B) (y : Fin d → ℝ) :
    y ∈ (Polyhedron (pairs l)).extremePoints ℝ ↔ liftReal p B y ∈ A.extremePoints ℝ := by
  have hcomb : ∀ (u v : Fin d → ℝ) (a b : ℝ), a + b = 1 → liftReal p B (a • u + b • v) = a • liftReal p B u + b • liftReal p B v := by
    intro u v a b hab
    funext k
    simp only [liftReal, Pi.add_apply, Pi.smul_apply, smul_eq_mul, add_mul, Finset.sum_add_distrib, mul_add, Finset.mul_sum]
    have h1 : (p k : ℝ) = a * p k + b * p k := by rw [← add_mul, hab, one_mul]
    have h2 : ∀ (c : ℝ) (f : Fin d → ℝ), ∑ j, c * f j * (B j k : ℝ) = ∑ j, c * (f j * (B j k : ℝ)) := fun c f => Finset.sum_congr rfl fun j _ => by ring
    rw [h2, h2]
    linarith
  have hmem : ∀ u, u ∈ Polyhedron (pairs l) ↔ liftReal p B u ∈ A := by
    intro u
    rw [← h.points]
    exact (h.inj.mem_set_image).symm
  rw [mem_extremePoints, mem_extremePoints, hmem]
  refine and_congr_right fun _ => ⟨fun hy x₁ hx₁ x₂ hx₂ hs => ?_, fun hy u hu v hv hs => ?_⟩
  · rw [← h.points] at hx₁ hx₂
    obtain ⟨u, hu, rfl⟩ := hx₁
    obtain ⟨v, hv, rfl⟩ := hx₂
    obtain ⟨a, b, ha, hb, hab, he⟩ := hs
    have : a • u + b • v = y := h.inj (by rw [hcomb u v a b hab, he])
    have hyu := hy u hu v hv ⟨a, b, ha, hb, hab, this⟩
    exact ⟨by rw [hyu.1], by rw [hyu.2]⟩
  · obtain ⟨a, b, ha, hb, hab, he⟩ := hs
    have hyu := hy _ ((hmem u).1 hu) _ ((hmem v).1 hv) ⟨a, b, ha, hb, hab, by rw [← hcomb u v a b hab, he]⟩
    exact ⟨h.inj hyu.1, h.inj hyu.2⟩

/-! ## What is delivered -/

/-- The right result before the vertices are computed: the number, when there is at most one integer point; or inequalities of a bounded polyhedron in coordinates for the solutions. -/
def RowStage.Right (P : Empty.Problem n) : RowStage → Prop
  | .ended e => e = .number (integerPoints P).ncard ∧ (P.Solutions.Subsingleton ∨ integerPoints P = ∅)
  | .rows d l => 0 < d ∧ Bornology.IsBounded (Polyhedron (pairs l)) ∧ ∃ (p : Fin n → ℤ) (B : Fin d → Fin n → ℤ), Coordinates P.Solutions l p B

theorem projectRows_right (hn : 0 < n) {P : Empty.Problem n} (E I : List (Row n)) (hsplit : Split P E I)
    (hdir : ∀ y : Fin n → ℝ, (∀ q ∈ both E I, 0 ≤ dot q.2 y) → y = 0) (hpoint : E.length = n → I = []) (hermite : ℕ)
    (hrounds : E = [] ∨ preprocessProblem hermite (fun j : Fin E.length => E.get j) I 0 1 ≠ .fuel) :
    (projectRows hermite n E I).Right P := by
  have hind := hsplit.independent
  have hb := bounded_of_directions _ hdir
  unfold projectRows
  by_cases hE : E = []
  · subst hE
    rw [if_pos rfl]
    refine ⟨hn, hb, 0, (fun j k => if j = k then 1 else 0), ?_⟩
    rw [← hsplit.solutions]
    exact id_coordinates I
  rw [if_neg hE]
  have hfin : (solutions (fun j : Fin E.length => E.get j) I 1).Finite := (finite_of_bounded hb).subset fun z hz => (solutions_iff E I z).1 hz
  by_cases hI : I = []
  · subst hI
    by_cases hlen : E.length = n
    · rw [no_inequalities hlen _ _ _ hind.int, hsplit.ncard]
      refine ⟨rfl, Or.inl ?_⟩
      rw [← hsplit.solutions]
      intro x hx y hy
      rw [mem_both] at hx hy
      exact unique_solution hind hlen hx.1 hy.1
    · exfalso
      obtain ⟨v, hv, h0⟩ := (c67_not_bounded (fuel := 0) (eqs := fun j : Fin E.length => E.get j) 0 1 (lt_of_le_of_ne hind.le hlen)).2
      have := hdir (fun k => (v k : ℝ)) ((dir_both E [] _).2 ⟨fun r hr => ?_, fun r hr => by cases hr⟩)
      · apply hv
        funext k
        have hk : (v k : ℝ) = 0 := congrFun this k
        exact_mod_cast hk
      · obtain ⟨j, rfl⟩ := List.get_of_mem hr
        have h2 : ∑ k, ((E.get j).a k : ℝ) * (v k : ℝ) = 0 := by exact_mod_cast h0 j
        exact h2
  have hlt : E.length < n := lt_of_le_of_ne hind.le fun hh => hI (hpoint hh)
  rcases preprocess_three (fuel := hermite) (eqs := fun j : Fin E.length => E.get j) 0 1 hI hlt.le with h | h | ⟨d, out, p, B, c, hrun⟩
  · exact absurd h (hrounds.resolve_left hE)
  · have h0 := c67_reported_count hI hlt (Or.inr ⟨hind.int, rfl⟩) hfin h
    rw [hsplit.ncard] at h0
    rw [h]
    refine ⟨by rw [h0], Or.inr ?_⟩
    rw [hsplit.ncard] at hfin
    exact (Set.ncard_eq_zero hfin).1 h0
  · have hb' : Bornology.IsBounded (Polyhedron (pairs out)) := by
      refine bounded_of_directions _ fun y hy => reduced_directions hI hlt.le (fun y h1 h2 => hdir y ((dir_both E I y).2 ⟨fun r hr => ?_, h2⟩)) hrun y fun r hr => ?_
      · obtain ⟨j, rfl⟩ := List.get_of_mem hr
        exact h1 j
      · exact hy (r.b, r.a) (List.mem_map.2 ⟨r, hr, rfl⟩)
    obtain ⟨r0, out', hout⟩ := List.exists_cons_of_ne_nil (reduced_ne hI hlt.le hrun)
    obtain ⟨j0, -⟩ := (c67_lattice_points hI hlt.le (Or.inr hind.int) hrun).2.1 r0 (by rw [hout]; simp)
    rw [hrun]
    refine ⟨lt_of_le_of_lt (Nat.zero_le _) j0.2, hb', p, B, ?_⟩
    rw [← hsplit.solutions]
    exact reduced_coordinates hI hlt.le hind hrun

/-- There is a number of rounds that suffices. -/
theorem projectRows_rounds (E I : List (Row n)) (hind : IndependentR E) (hpoint : E.length = n → I = []) :
    ∃ N, ∀ hermite, N ≤ hermite → (E = [] ∨ preprocessProblem hermite (fun j : Fin E.length => E.get j) I 0 1 ≠ .fuel) ∧
      projectRows hermite n E I = projectRows N n E I := by
  by_cases hE : E = []
  · exact ⟨0, fun hermite _ => ⟨Or.inl hE, by unfold projectRows; rw [if_pos hE, if_pos hE]⟩⟩
  obtain ⟨N, o, ho, hne⟩ : ∃ N o, (∀ hermite, N ≤ hermite → preprocessProblem hermite (fun j : Fin E.length => E.get j) I 0 1 = o) ∧ o ≠ .fuel := by
    by_cases hI : I = []
    · subst hI
      by_cases hlen : E.length = n
      · exact ⟨0, _, fun _ _ => no_inequalities hlen _ _ _ hind.int, by simp⟩
      · exact ⟨0, _, fun _ _ => (c67_not_bounded (eqs := fun j : Fin E.length => E.get j) 0 1 (lt_of_le_of_ne hind.le hlen)).1, by simp⟩
    · have hlt : E.length < n := lt_of_le_of_ne hind.le fun hh => hI (hpoint hh)
      obtain ⟨N, o, ho, hcase⟩ := c67_ends (fun j : Fin E.length => E.get j) 0 1 hI hlt.le
      refine ⟨N, o, ho, ?_⟩
      rcases hcase with rfl | ⟨d, out, p, B, c, rfl⟩ <;> simp
  refine ⟨N, fun hermite hN => ⟨Or.inr (by rw [ho hermite hN]; exact hne), ?_⟩⟩
  unfold projectRows
  rw [if_neg hE, if_neg hE, ho hermite hN, ho N le_rfl]

theorem matrixRows_eq {T : Tools} {hermite : ℕ} {M : LMatrix} (hc : (T.canonicalize M).colsize - 1 = n) (h : ∀ r ∈ (T.canonicalize M).rows, Integral r) :
    matrixRows T hermite M = projectRows hermite n ((part (T.canonicalize M) true).map (intRow n)) ((part (T.canonicalize M) false).map (intRow n)) := by
  unfold matrixRows
  subst hc
  rw [splitRows_eq _ h]

/-- **C92, the inequalities.** For every file that describes a polytope or an empty set: if the loop of the elimination may run long enough, the program ends with the right number or
has the inequalities of a bounded polyhedron in coordinates for the solutions in hand; if not, it has no result. -/
theorem c92_rows {T : Tools} (hT : T.Ok) (hn : 0 < n) (P : Empty.Problem n) (h : P.Ok) (hs : Small P) (h0 : P.rows ≠ []) (hf : P.nonnegFirst = false)
    (hd : P.Directions = {0}) :
    (∀ hermite, (fileRows T hermite (text P)).Right P ∨ fileRows T hermite (text P) = .ended (.failed .fuel)) ∧
      ∃ N st, st.Right P ∧ ∀ hermite, N ≤ hermite → fileRows T hermite (text P) = st := by
  obtain ⟨h1, h2⟩ := Empty.c86_decides T.lp hT.lp P h (Or.inl h0) (by rw [hf]; simp)
  by_cases hne : P.Solutions.Nonempty
  · have hc : Canonical n (matrix P) (T.canonicalize (matrix P)) := hT.canonicalize n (matrix P) rfl rfl (matrix_length P) (by rw [sols_matrix P h]; exact hne)
    have hcols : (T.canonicalize (matrix P)).colsize - 1 = n := by rw [hc.cols]; rfl
    have hint : ∀ r ∈ (T.canonicalize (matrix P)).rows, Integral r := fun r hr => matrix_integral P r (hc.rows r hr)
    have hsplit := split_canonical P h hc
    have he : ∀ hermite, fileRows T hermite (text P) = projectRows hermite n ((part (T.canonicalize (matrix P)) true).map (intRow n))
        ((part (T.canonicalize (matrix P)) false).map (intRow n)) := by
      intro hermite
      unfold fileRows
      rw [tokens_text P hf, h1 hne, read_text P h hs.rows hs.cols hs.nonneg]
      exact matrixRows_eq hcols hint
    generalize (part (T.canonicalize (matrix P)) true).map (intRow n) = E at *
    generalize (part (T.canonicalize (matrix P)) false).map (intRow n) = I at *
    have hright : ∀ hermite, _ → _ := fun hermite hr => projectRows_right hn E I hsplit (hsplit.directions hne hd) (hsplit.point hne) hermite hr
    constructor
    · intro hermite
      rw [he]
      by_cases hr : E = [] ∨ preprocessProblem hermite (fun j : Fin E.length => E.get j) I 0 1 ≠ .fuel
      · exact Or.inl (hright hermite hr)
      · right
        push Not at hr
        unfold projectRows
        rw [if_neg hr.1, hr.2]
    · obtain ⟨N, hN⟩ := projectRows_rounds E I hsplit.independent (hsplit.point hne)
      refine ⟨N, _, ?_, fun hermite hh => by rw [he hermite, (hN hermite hh).2]⟩
      exact hright N (hN N le_rfl).1
  · rw [Set.not_nonempty_iff_eq_empty] at hne
    have e0 : integerPoints P = ∅ := by
      ext z
      rw [integerPoints_iff, hne]
      simp
    have he : ∀ hermite, fileRows T hermite (text P) = .ended (.number 0) := by
      intro hermite
      unfold fileRows
      rw [tokens_text P hf, h2 hne hd]
      rfl
    have hr : (RowStage.ended (.number 0)).Right P := ⟨by rw [e0]; simp, Or.inr e0⟩
    exact ⟨fun hermite => Or.inl (by rw [he]; exact hr), 0, .ended (.number 0), hr, fun hermite _ => he hermite⟩

end Verif.Whole
