import Verif.Whole.Volume
import Verif.Whole.Contracts

/-!
# C93: polytopes of lower dimension

The equations are eliminated first; the volume computed is the one in coordinates for the integer points of the affine hull.
-/

namespace Verif.Whole

open MeasureTheory Verif.Barvinok Verif.Barvinok.Spec Verif.Ti2 Verif.Brion Verif.Files Verif.Preprocess Verif.Valuation Latte.RatVec
open Verif.ExpSubst (Fail)

variable {n m d : ℕ}

/-! ## Interior points -/

theorem newRows_strict {p : Fin n → ℤ} {basis : Fin d → Fin n → ℤ} (y : Fin d → ℝ) (ineqs : List (Row n)) :
    ∀ out, newRows p basis 1 ineqs = some out → (∀ r ∈ ineqs, 0 < (r.b : ℝ) + dot r.a (liftReal p basis y)) → ∀ r ∈ out, 0 < (r.b : ℝ) + dot r.a y := by
  have key : ∀ r : Row n, ((newRow p basis 1 r).b : ℝ) + dot (newRow p basis 1 r).a y = (r.b : ℝ) + dot r.a (liftReal p basis y) := by
    intro r
    unfold newRow liftReal dot
    push_cast
    simp only [one_mul, mul_add, Finset.sum_add_distrib, Finset.mul_sum, Finset.sum_mul]
    rw [add_assoc, Finset.sum_comm (s := (Finset.univ : Finset (Fin d)))]
    congr 2
    exact Finset.sum_congr rfl fun k _ => Finset.sum_congr rfl fun j _ => by ring
  induction ineqs with
  | nil =>
    intro out h
    simp only [newRows, Option.some.injEq] at h
    subst h
    simp
  | cons r rs ih =>
    intro out h hs
    have hs' := List.forall_mem_cons.1 hs
    rw [newRows] at h
    split at h
    · cases h
    · split at h
      · cases h
      · rename_i out' ho
        split at h
        · obtain rfl := Option.some.inj h
          refine List.forall_mem_cons.2 ⟨?_, ih out' ho hs'.2⟩
          rw [key]
          exact hs'.1
        · obtain rfl := Option.some.inj h
          exact ih _ ho hs'.2

theorem reduced_newRows {fuel : ℕ} {E I : List (Row n)} {cost : Fin n → ℤ} (hi : I ≠ []) (hmn : E.length ≤ n)
    {out : List (Row d)} {p : Fin n → ℤ} {B : Fin d → Fin n → ℤ} {newCost : Fin d → ℤ}
    (hrun : preprocessProblem fuel (fun j : Fin E.length => E.get j) I cost 1 = .reduced d out p B newCost) : newRows p B 1 I = some out := by
  rw [preprocess_cases hi hmn] at hrun
  split at hrun
  · simp at hrun
  rename_i s hs'
  have h := ihermite_spec hs'
  rw [eliminate_eq hmn h] at hrun
  split at hrun
  · simp at hrun
  split at hrun
  · simp at hrun
  rename_i out' hout
  cases out' with
  | nil => simp [checkRows] at hrun
  | cons r rs =>
    simp only [checkRows] at hrun
    cases hrun
    exact hout

theorem interior_strict (l : List (Row d)) (y : Fin d → ℝ) (h : ∀ r ∈ l, 0 < (r.b : ℝ) + dot r.a y) : y ∈ interior (Polyhedron (pairs l)) := by
  have hopen : IsOpen (⋂ r ∈ {r | r ∈ l}, {x : Fin d → ℝ | 0 < (r.b : ℝ) + dot r.a x}) := by
    refine Set.Finite.isOpen_biInter (List.finite_toSet l) fun r _ => ?_
    exact isOpen_lt continuous_const (continuous_const.add (continuous_dot r.a))
  refine interior_maximal ?_ hopen (by simpa using h)
  intro x hx q hq
  obtain ⟨r, hr, rfl⟩ := List.mem_map.1 hq
  simp only [Set.mem_ofPred_eq, Set.mem_iInter] at hx
  exact (hx r hr).le

theorem projectRows_interior {P : Empty.Problem n} (E I : List (Row n)) (hsplit : Split P E I) (hpoint : E.length = n → I = [])
    (x : Fin n → ℝ) (hx : x ∈ Polyhedron (both E I)) (hpos : ∀ r ∈ I, 0 < (r.b : ℝ) + dot r.a x) (hermite : ℕ) {l : List (Row d)}
    (h : projectRows hermite n E I = .rows d l) : (interior (Polyhedron (pairs l))).Nonempty := by
  unfold projectRows at h
  by_cases hE : E = []
  · rw [if_pos hE] at h
    cases h
    exact ⟨x, interior_strict _ x hpos⟩
  rw [if_neg hE] at h
  have hind := hsplit.independent
  by_cases hI : I = []
  · subst hI
    exfalso
    by_cases hlen : E.length = n
    · rw [no_inequalities hlen _ _ _ hind.int] at h
      cases h
    · rw [(c67_not_bounded (fuel := hermite) (eqs := fun j : Fin E.length => E.get j) 0 1 (lt_of_le_of_ne hind.le hlen)).1] at h
      cases h
  have hlt : E.length < n := lt_of_le_of_ne hind.le fun hh => hI (hpoint hh)
  rcases preprocess_three (fuel := hermite) (eqs := fun j : Fin E.length => E.get j) 0 1 hI hlt.le with h' | h' | ⟨d', out, p, B, c, hrun⟩
  · rw [h'] at h; cases h
  · rw [h'] at h; cases h
  · rw [hrun] at h
    cases h
    have hco := reduced_coordinates hI hlt.le hind hrun
    rw [← hco.points] at hx
    obtain ⟨y, -, rfl⟩ := hx
    exact ⟨y, interior_strict _ y (newRows_strict y I _ (reduced_newRows hI hlt.le hrun) hpos)⟩

/-- The inequalities in hand have interior solutions. -/
theorem fileRows_interior {T : Tools} (hT : T.Ok) (hst : CanonicalizeStrict T.canonicalize) (P : Empty.Problem n) (h : P.Ok) (hs : Small P)
    (h0 : P.rows ≠ []) (hf : P.nonnegFirst = false) (hne : P.Solutions.Nonempty) (hermite : ℕ) {l : List (Row d)} (hl : fileRows T hermite (text P) = .rows d l) :
    (interior (Polyhedron (pairs l))).Nonempty := by
  obtain ⟨h1, h2⟩ := Empty.c86_decides T.lp hT.lp P h (Or.inl h0) (by rw [hf]; simp)
  have hne' : (Sols n (part (matrix P) true) (part (matrix P) false)).Nonempty := by rw [sols_matrix P h]; exact hne
  have hc : Canonical n (matrix P) (T.canonicalize (matrix P)) := hT.canonicalize n (matrix P) rfl rfl (matrix_length P) hne'
  obtain ⟨x, hx, hpos⟩ := hst n (matrix P) rfl rfl (matrix_length P) hne'
  have hcols : (T.canonicalize (matrix P)).colsize - 1 = n := by rw [hc.cols]; rfl
  have hint : ∀ r ∈ (T.canonicalize (matrix P)).rows, Integral r := fun r hr => matrix_integral P r (hc.rows r hr)
  have hsplit := split_canonical P h hc
  unfold fileRows at hl
  rw [tokens_text P hf, h1 hne, read_text P h hs.rows hs.cols hs.nonneg] at hl
  have hl' : projectRows hermite n ((part (T.canonicalize (matrix P)) true).map (intRow n)) ((part (T.canonicalize (matrix P)) false).map (intRow n)) = .rows d l := by
    rw [← matrixRows_eq hcols hint]
    exact hl
  have hpart : ∀ e, ∀ r ∈ part (T.canonicalize (matrix P)) e, Integral r := fun e r hr => hint r (part_mem hr)
  refine projectRows_interior _ _ hsplit (hsplit.point hne) x (by rw [← sols_both (hpart true) (hpart false)]; exact hx) ?_ hermite hl'
  intro r hr
  obtain ⟨q, hq, rfl⟩ := List.mem_map.1 hr
  rw [← value_intRow (hpart false q hq)]
  exact hpos q hq

/-! ## Volume with respect to a lattice -/

/-- **Specification.** Coordinates for a set `A` and the integer points of its affine hull: `y ↦ p + Σ yⱼ Bⱼ` is injective, maps `Q` onto `A`, and its values at integer points, and only those,
are integer points. -/
structure LatticeCoordinates (A : Set (Fin n → ℝ)) (Q : Set (Fin d → ℝ)) (p : Fin n → ℤ) (B : Fin d → Fin n → ℤ) : Prop where
  inj : Function.Injective fun (y : Fin d → ℝ) (k : Fin n) => (p k : ℝ) + ∑ j, y j * (B j k : ℝ)
  points : (fun (y : Fin d → ℝ) (k : Fin n) => (p k : ℝ) + ∑ j, y j * (B j k : ℝ)) '' Q = A
  lattice : ∀ y : Fin d → ℝ, (∀ j, ∃ z : ℤ, y j = z) ↔ ∀ k, ∃ w : ℤ, (p k : ℝ) + ∑ j, y j * (B j k : ℝ) = w

/-- **Specification.** `v` is the volume of `A` in coordinates for the integer points of its affine hull. -/
def IsLatticeVolume (A : Set (Fin n → ℝ)) (v : ℝ) : Prop :=
  ∃ (d : ℕ) (Q : Set (Fin d → ℝ)) (p : Fin n → ℤ) (B : Fin d → Fin n → ℤ), LatticeCoordinates A Q p B ∧ (interior Q).Nonempty ∧ v = (volume Q).toReal

section Unique

variable {d' : ℕ} {A : Set (Fin n → ℝ)} {Q : Set (Fin d → ℝ)} {Q' : Set (Fin d' → ℝ)} {p p' : Fin n → ℤ} {B : Fin d → Fin n → ℤ} {B' : Fin d' → Fin n → ℤ}

/-- The linear part. -/
def linPart (B : Fin d → Fin n → ℤ) : (Fin d → ℝ) →ₗ[ℝ] (Fin n → ℝ) where
  toFun y := fun k => ∑ j, y j * (B j k : ℝ)
  map_add' x y := by
    funext k
    simp [add_mul, Finset.sum_add_distrib]
  map_smul' c x := by
    funext k
    simp only [Pi.smul_apply, smul_eq_mul, RingHom.id_apply, Finset.mul_sum]
    exact Finset.sum_congr rfl fun j _ => by ring

theorem LatticeCoordinates.linInj (h : LatticeCoordinates A Q p B) : Function.Injective (linPart B) := by
  intro x y hxy
  apply h.inj
  funext k
  have := congrFun hxy k
  simp only [linPart, LinearMap.coe_mk, AddHom.coe_mk] at this
  simp only [this]

/-- A change of coordinates. -/
theorem LatticeCoordinates.change (h : LatticeCoordinates A Q p B) (hQ : (interior Q).Nonempty) (h' : LatticeCoordinates A Q' p' B') :
    ∃ (L : (Fin d → ℝ) →ₗ[ℝ] (Fin d' → ℝ)) (t : Fin d' → ℝ), (∀ y, linPart B' (L y) = linPart B y) ∧
      (∀ y k, (p k : ℝ) + linPart B y k = p' k + linPart B' (L y + t) k) ∧ ∀ z : Fin d → ℤ, ∀ i, ∃ w : ℤ, L (fun j => (z j : ℝ)) i = w := by
  obtain ⟨y0, hy0⟩ := hQ
  have hmem : ∀ y ∈ Q, ∃ y' ∈ Q', ∀ k, (p k : ℝ) + linPart B y k = p' k + linPart B' y' k := by
    intro y hy
    have : (fun k => (p k : ℝ) + ∑ j, y j * (B j k : ℝ)) ∈ A := by
      rw [← h.points]
      exact ⟨y, hy, rfl⟩
    rw [← h'.points] at this
    obtain ⟨y', hy', e⟩ := this
    exact ⟨y', hy', fun k => (congrFun e k).symm⟩
  obtain ⟨y0', -, e0⟩ := hmem y0 (interior_subset hy0)
  have hrange : ∀ v, ∃ u, linPart B' u = linPart B v := by
    intro v
    have hcont : Continuous fun t : ℝ => y0 + t • v := by fun_prop
    have hev : ∀ᶠ t in nhds (0:ℝ), y0 + t • v ∈ Q := by
      have : Filter.Tendsto (fun t : ℝ => y0 + t • v) (nhds 0) (nhds y0) := by
        have := hcont.tendsto 0
        rwa [show y0 + (0:ℝ) • v = y0 by simp] at this
      exact this.eventually (mem_interior_iff_mem_nhds.1 hy0)
    obtain ⟨ε, hε, hball⟩ := Metric.eventually_nhds_iff.1 hev
    obtain ⟨y', -, e⟩ := hmem _ (hball (y := ε / 2) (by rw [Real.dist_eq, sub_zero, abs_of_pos (by positivity)]; linarith))
    refine ⟨(ε / 2)⁻¹ • (y' - y0'), ?_⟩
    have e1 : linPart B' (y' - y0') = (ε / 2) • linPart B v := by
      funext k
      have h1 := e k
      have h2 := e0 k
      rw [map_add, map_smul] at h1
      rw [map_sub]
      simp only [Pi.add_apply, Pi.sub_apply, Pi.smul_apply, smul_eq_mul] at h1 ⊢
      linarith
    rw [map_smul, e1, smul_smul, inv_mul_cancel₀ (by positivity), one_smul]
  choose f hf using hrange
  let L : (Fin d → ℝ) →ₗ[ℝ] (Fin d' → ℝ) :=
    { toFun := f
      map_add' := fun x y => h'.linInj (by rw [map_add, hf, hf, hf, map_add])
      map_smul' := fun c x => h'.linInj (by simp only [RingHom.id_apply]; rw [map_smul, hf, hf, map_smul]) }
  have hL : ∀ y, linPart B' (L y) = linPart B y := hf
  have hall : ∀ y k, (p k : ℝ) + linPart B y k = p' k + linPart B' (L y + (y0' - L y0)) k := by
    intro y k
    have h2 := e0 k
    rw [map_add, map_sub, hL, hL]
    simp only [Pi.add_apply, Pi.sub_apply]
    linarith
  have hint : ∀ z : Fin d → ℤ, ∀ i, ∃ w : ℤ, (L (fun j => (z j : ℝ)) + (y0' - L y0)) i = w := by
    intro z
    rw [h'.lattice]
    intro k
    obtain ⟨w, hw⟩ := (h.lattice fun j => (z j : ℝ)).1 (fun j => ⟨z j, rfl⟩) k
    exact ⟨w, by rw [← hw]; exact (hall _ k).symm⟩
  refine ⟨L, y0' - L y0, hL, hall, fun z i => ?_⟩
  obtain ⟨w1, h1⟩ := hint z i
  obtain ⟨w0, h0⟩ := hint 0 i
  have e : L (fun j => ((0 : Fin d → ℤ) j : ℝ)) = 0 := by
    rw [show (fun j => ((0 : Fin d → ℤ) j : ℝ)) = 0 by funext j; simp, map_zero]
  rw [e] at h0
  refine ⟨w1 - w0, ?_⟩
  simp only [Pi.add_apply, Pi.zero_apply, zero_add] at h1 h0
  push_cast
  linarith

/-- The number of coordinates is unique. -/
theorem LatticeCoordinates.dim_eq (h : LatticeCoordinates A Q p B) (hQ : (interior Q).Nonempty) (h' : LatticeCoordinates A Q' p' B') (hQ' : (interior Q').Nonempty) : d = d' := by
  obtain ⟨L, t, hL, hall, hint⟩ := h.change hQ h'
  obtain ⟨L', t', hL', hall', hint'⟩ := h'.change hQ' h
  have e1 : ∀ y, L' (L y) = y := fun y => h.linInj (by rw [hL', hL])
  have e2 : ∀ y, L (L' y) = y := fun y => h'.linInj (by rw [hL, hL'])
  have := LinearEquiv.finrank_eq (LinearEquiv.ofLinearMap L L' (LinearMap.ext e2) (LinearMap.ext e1))
  simpa using this

/-- The volume does not depend on the coordinates. -/
theorem LatticeCoordinates.volume_eq (h : LatticeCoordinates A Q p B) (hQ : (interior Q).Nonempty) (h' : LatticeCoordinates A Q' p' B') (hQ' : (interior Q').Nonempty) :
    (volume Q).toReal = (volume Q').toReal := by
  obtain ⟨L, t, hL, hall, hint⟩ := h.change hQ h'
  obtain ⟨L', t', hL', hall', hint'⟩ := h'.change hQ' h
  have hdd := h.dim_eq hQ h' hQ'
  subst hdd
  have e2 : ∀ y, L (L' y) = y := fun y => h'.linInj (by rw [hL, hL'])
  have hmat : ∀ (M : (Fin d → ℝ) →ₗ[ℝ] (Fin d → ℝ)), (∀ z : Fin d → ℤ, ∀ i, ∃ w : ℤ, M (fun j => (z j : ℝ)) i = w) → ∃ k : ℤ, LinearMap.det M = k := by
    intro M hM
    have : ∀ i j, ∃ w : ℤ, LinearMap.toMatrix' M i j = w := by
      intro i j
      rw [LinearMap.toMatrix'_apply]
      obtain ⟨w, hw⟩ := hM (Pi.single j 1) i
      refine ⟨w, ?_⟩
      rw [← hw]
      have e : (Pi.single j 1 : Fin d → ℝ) = fun k => ((Pi.single j 1 : Fin d → ℤ) k : ℝ) := by
        funext k
        by_cases hk : k = j
        · subst hk; simp
        · simp [hk]
      rw [e]
    choose W hW using this
    refine ⟨Matrix.det (Matrix.of W), ?_⟩
    rw [← LinearMap.det_toMatrix']
    have e := RingHom.map_det (Int.castRingHom ℝ) (Matrix.of W)
    rw [eq_intCast] at e
    rw [e]
    congr 1
    ext i j
    simp [hW]
  obtain ⟨a, ha⟩ := hmat L hint
  obtain ⟨b, hb⟩ := hmat L' hint'
  have hab : a * b = 1 := by
    have : LinearMap.det (L ∘ₗ L') = 1 := by
      rw [show L ∘ₗ L' = LinearMap.id from LinearMap.ext e2, LinearMap.det_id]
    rw [LinearMap.det_comp, ha, hb] at this
    exact_mod_cast this
  have habs : |(a : ℝ)| = 1 := by
    rcases Int.isUnit_iff.1 (IsUnit.of_mul_eq_one b hab) with rfl | rfl <;> simp
  have hset : Q' = (fun y => y + t) '' (L '' Q) := by
    ext y
    constructor
    · intro hy
      have hA : (fun k => (p' k : ℝ) + ∑ j, y j * (B' j k : ℝ)) ∈ A := by
        rw [← h'.points]
        exact ⟨y, hy, rfl⟩
      rw [← h.points] at hA
      obtain ⟨q, hq, e⟩ := hA
      refine ⟨L q, ⟨q, hq, rfl⟩, h'.inj ?_⟩
      funext k
      exact (hall q k).symm.trans (congrFun e k)
    · rintro ⟨_, ⟨q, hq, rfl⟩, rfl⟩
      have hA : (fun k => (p k : ℝ) + ∑ j, q j * (B j k : ℝ)) ∈ A := by
        rw [← h.points]
        exact ⟨q, hq, rfl⟩
      rw [← h'.points] at hA
      obtain ⟨y, hy, e⟩ := hA
      have : y = L q + t := h'.inj (by
        funext k
        exact (congrFun e k).trans (hall q k))
      rw [this] at hy
      exact hy
  rw [hset, Set.image_add_right, measure_preimage_add_right, Measure.addHaar_image_linearMap, ha, habs]
  simp

/-- **There is only one such volume.** -/
theorem latticeVolume_unique {v w : ℝ} (hv : IsLatticeVolume A v) (hw : IsLatticeVolume A w) : v = w := by
  obtain ⟨d, Q, p, B, h, hQ, rfl⟩ := hv
  obtain ⟨d', Q', p', B', h', hQ', rfl⟩ := hw
  exact h.volume_eq hQ h' hQ'

end Unique

/-- For a set with interior points it is the volume. -/
theorem latticeVolume_full {A : Set (Fin n → ℝ)} (hA : (interior A).Nonempty) {v : ℝ} : IsLatticeVolume A v ↔ v = (volume A).toReal := by
  have hid : ∀ y : Fin n → ℝ, (fun k => ((0 : Fin n → ℤ) k : ℝ) + ∑ j, y j * (((if j = k then 1 else 0 : ℤ)) : ℝ)) = y := by
    intro y
    funext k
    simp
  have h0 : IsLatticeVolume A (volume A).toReal := by
    refine ⟨n, A, 0, (fun j k => if j = k then 1 else 0), ⟨?_, ?_, ?_⟩, hA, rfl⟩
    · intro x y hxy
      have : x = y := by rw [← hid x, ← hid y]; exact hxy
      exact this
    · rw [show (fun (y : Fin n → ℝ) (k : Fin n) => ((0 : Fin n → ℤ) k : ℝ) + ∑ j, y j * (((if j = k then 1 else 0 : ℤ)) : ℝ)) = id from funext hid, Set.image_id]
    · intro y
      refine forall_congr' fun k => ?_
      rw [congrFun (hid y) k]
  exact ⟨fun h => latticeVolume_unique h h0, fun h => h ▸ h0⟩

theorem Coordinates.toLattice {A : Set (Fin n → ℝ)} {l : List (Row d)} {p : Fin n → ℤ} {B : Fin d → Fin n → ℤ} (h : Coordinates A l p B) :
    LatticeCoordinates A (Polyhedron (pairs l)) p B := by
  refine ⟨h.inj, h.points, fun y => ?_⟩
  have e : (∀ j, ∃ z : ℤ, y j = z) ↔ ∃ z : Fin d → ℤ, y = fun j => (z j : ℝ) := by
    constructor
    · intro hz
      choose z hz using hz
      exact ⟨z, funext hz⟩
    · rintro ⟨z, rfl⟩ j
      exact ⟨z j, rfl⟩
  have e' : (∀ k, ∃ w : ℤ, (p k : ℝ) + ∑ j, y j * (B j k : ℝ) = w) ↔ ∃ w : Fin n → ℤ, liftReal p B y = fun k => (w k : ℝ) := by
    constructor
    · intro hz
      choose z hz using hz
      exact ⟨z, funext hz⟩
    · rintro ⟨z, hz⟩ j
      exact ⟨z j, congrFun hz j⟩
  rw [e, e']
  exact h.lattice y

/-! ## Files -/

/-- **Specification.** Two answers or, with `--cone-decompose`, one, all of them the volume with respect to the lattice. -/
def RightLatticeAnswers (o : VolumeOption) (A : Set (Fin n → ℝ)) (l : List ℚ) : Prop :=
  l.length = (match o with | .both => 2 | .coneDecompose => 1) ∧ ∀ v ∈ l, IsLatticeVolume A v

/-- **C93: the answers are right for all polytopes.** For every file that describes a polytope, of full dimension or not, or the empty set: all answers printed are its volume in
coordinates for the integer points of its affine hull, and the two methods never disagree. -/
theorem c93_lattice_volume {T : Tools} (hT : T.Ok) (hst : CanonicalizeStrict T.canonicalize) (o : VolumeOption) (draws : List ℕ) (hermite : ℕ) (hn : 0 < n)
    (P : Empty.Problem n) (h : P.Ok) (hs : Small P) (h0 : P.rows ≠ []) (hf : P.nonnegFirst = false) (hd : P.Directions = {0}) :
    volumeFile T o draws hermite (text P) ≠ .differ ∧
      ∀ answers, volumeFile T o draws hermite (text P) = .answers answers → RightLatticeAnswers o P.Solutions answers := by
  have hr := (c92_rows hT hn P h hs h0 hf hd).1 hermite
  unfold volumeFile
  cases e : fileRows T hermite (text P) with
  | ended en => exact ⟨nofun, nofun⟩
  | rows d l =>
    rw [e] at hr
    rcases hr with ⟨hd0, hb, p, B, hco⟩ | hr
    · obtain ⟨d, rfl⟩ := Nat.exists_eq_succ_of_ne_zero hd0.ne'
      by_cases hne : P.Solutions.Nonempty
      · have hi := fileRows_interior hT hst P h hs h0 hf hne hermite e
        obtain ⟨h1, h2⟩ := volumeRows_right hT o draws l hb hi
        exact ⟨h1, fun as has => ⟨(h2 as has).1, fun v hv => ⟨d + 1, _, p, B, hco.toLattice, hi, (h2 as has).2 v hv⟩⟩⟩
      · exfalso
        have h2 := (Empty.c86_decides T.lp hT.lp P h (Or.inl h0) (by rw [hf]; simp)).2 (Set.not_nonempty_iff_eq_empty.1 hne) hd
        unfold fileRows at e
        rw [tokens_text P hf, h2] at e
        cases e
    · cases hr

theorem newRows_none_real {p : Fin n → ℤ} {basis : Fin d → Fin n → ℤ} (y : Fin d → ℝ) (ineqs : List (Row n)) (h : newRows p basis 1 ineqs = none) :
    ∃ r ∈ ineqs, (r.b : ℝ) + dot r.a (liftReal p basis y) < 0 := by
  have key : ∀ r : Row n, ((newRow p basis 1 r).b : ℝ) + dot (newRow p basis 1 r).a y = (r.b : ℝ) + dot r.a (liftReal p basis y) := by
    intro r
    unfold newRow liftReal dot
    push_cast
    simp only [one_mul, mul_add, Finset.sum_add_distrib, Finset.mul_sum, Finset.sum_mul]
    rw [add_assoc, Finset.sum_comm (s := (Finset.univ : Finset (Fin d)))]
    congr 2
    exact Finset.sum_congr rfl fun k _ => Finset.sum_congr rfl fun j _ => by ring
  induction ineqs with
  | nil => simp [newRows] at h
  | cons r rs ih =>
    rw [newRows] at h
    split at h
    · rename_i hno
      refine ⟨r, List.mem_cons_self, ?_⟩
      rw [← key]
      have hz : ∀ j, (newRow p basis 1 r).a j = 0 := fun j =>
        abs_eq_zero.1 ((Finset.sum_eq_zero_iff_of_nonneg fun j _ => abs_nonneg _).1 hno.1 j (Finset.mem_univ j))
      unfold dot
      simp only [hz, Int.cast_zero, zero_mul, Finset.sum_const_zero, add_zero]
      exact_mod_cast hno.2
    · split at h
      · rename_i ho
        obtain ⟨q, hq, h'⟩ := ih ho
        exact ⟨q, List.mem_cons_of_mem _ hq, h'⟩
      · split at h <;> cases h

/-- The elimination gives up only if the equations have no integer solution. -/
theorem count_unsolvable {fuel : ℕ} {E I : List (Row n)} (hi : I ≠ []) (hmn : E.length < n) (hne : (Polyhedron (both E I)).Nonempty)
    (hfin : (solutions (fun j : Fin E.length => E.get j) I 1).Finite) {k : ℕ} (hrun : preprocessProblem fuel (fun j : Fin E.length => E.get j) I 0 1 = .count k) :
    ¬ IntSolvable fun j : Fin E.length => E.get j := by
  intro hsol
  rw [preprocess_cases hi hmn.le] at hrun
  split at hrun
  · simp at hrun
  rename_i s hs'
  have h := ihermite_spec hs'
  rw [eliminate_eq hmn.le h, if_neg fun hc => hc.2 hsol] at hrun
  have hp := particular_solves hmn.le h hsol
  split at hrun
  · rename_i hnone
    obtain ⟨x, hx⟩ := hne
    rw [mem_both] at hx
    generalize hP : Matrix.vecMul (forward hmn.le s.S.transpose (List.finRange E.length) 0 s.rhs) s.U = P at *
    have hpe : ∀ r ∈ E, (r.b : ℝ) + dot r.a (fun k => (P k : ℝ)) = 0 := by
      intro r hr
      obtain ⟨j, rfl⟩ := List.get_of_mem hr
      have h2 := hp j
      unfold Row.eval at h2
      unfold dot
      have : (((1 * (E.get j).b + ∑ k, (E.get j).a k * P k : ℤ)) : ℝ) = 0 := by exact_mod_cast h2
      push_cast at this
      linarith
    have hsplit : ∀ f : Vec n, dot f (fun k => x k - (P k : ℝ)) = dot f x - dot f (fun k => (P k : ℝ)) := by
      intro f
      unfold dot
      rw [← Finset.sum_sub_distrib]
      exact Finset.sum_congr rfl fun k _ => by ring
    obtain ⟨y, hy⟩ := latticeBasis_spans h (fun k => x k - (P k : ℝ)) (fun j => by
      rw [hsplit]
      have h1 := hx.1 _ (List.get_mem E j)
      have h2 := hpe _ (List.get_mem E j)
      linarith)
    have hxy : liftReal P (latticeBasis s h.hn) y = x := by
      funext k
      unfold liftReal
      rw [← hy k]
      ring
    obtain ⟨r, hr, hlt⟩ := newRows_none_real y I hnone
    rw [hxy] at hlt
    exact absurd (hx.2 r hr) (not_le.2 hlt)
  · rename_i out hout
    cases out with
    | nil =>
      have hcrk : s.crk < n := lt_of_le_of_lt h.hm hmn
      exact absurd hfin (infinite_of_empty h hp hcrk hout)
    | cons r rs => simp [checkRows] at hrun

/-- With an integer point in the affine hull of more than one solution, inequalities remain. -/
theorem fileRows_rows {T : Tools} (hT : T.Ok) (P : Empty.Problem n) (h : P.Ok) (hs : Small P) (h0 : P.rows ≠ []) (hf : P.nonnegFirst = false) (hd : P.Directions = {0})
    (h1 : ¬ P.Solutions.Subsingleton) (z : Fin n → ℤ) (hz : (fun k => (z k : ℝ)) ∈ affineSpan ℝ P.Solutions) (hermite : ℕ) (e : Ending)
    (he : fileRows T hermite (text P) = .ended e) : e = .failed .fuel := by
  have hne : P.Solutions.Nonempty := by
    by_contra hne
    exact h1 (by rw [Set.not_nonempty_iff_eq_empty.1 hne]; exact Set.subsingleton_empty)
  obtain ⟨h1', h2⟩ := Empty.c86_decides T.lp hT.lp P h (Or.inl h0) (by rw [hf]; simp)
  have hc : Canonical n (matrix P) (T.canonicalize (matrix P)) := hT.canonicalize n (matrix P) rfl rfl (matrix_length P) (by rw [sols_matrix P h]; exact hne)
  have hcols : (T.canonicalize (matrix P)).colsize - 1 = n := by rw [hc.cols]; rfl
  have hint : ∀ r ∈ (T.canonicalize (matrix P)).rows, Integral r := fun r hr => matrix_integral P r (hc.rows r hr)
  have hsplit := split_canonical P h hc
  have hdir := hsplit.directions hne hd
  have hpoint := hsplit.point hne
  unfold fileRows at he
  rw [tokens_text P hf, h1' hne, read_text P h hs.rows hs.cols hs.nonneg] at he
  have he' : projectRows hermite n ((part (T.canonicalize (matrix P)) true).map (intRow n)) ((part (T.canonicalize (matrix P)) false).map (intRow n)) = .ended e := by
    rw [← matrixRows_eq hcols hint]
    exact he
  clear he hint hcols hc
  generalize (part (T.canonicalize (matrix P)) true).map (intRow n) = E at *
  generalize (part (T.canonicalize (matrix P)) false).map (intRow n) = I at *
  have hind := hsplit.independent
  have hb := bounded_of_directions _ hdir
  have hfin : (solutions (fun j : Fin E.length => E.get j) I 1).Finite := (finite_of_bounded hb).subset fun z hz => (solutions_iff E I z).1 hz
  have hsol : IntSolvable fun j : Fin E.length => E.get j := by
    refine ⟨z, fun j => ?_⟩
    let A : AffineSubspace ℝ (Fin n → ℝ) :=
      { carrier := {x | ((E.get j).b : ℝ) + dot (E.get j).a x = 0}
        smul_vsub_vadd_mem' := by
          intro c p q r hp hq hr
          simp only [Set.mem_ofPred_eq] at hp hq hr ⊢
          have e : dot (E.get j).a (c • (p -ᵥ q) +ᵥ r) = c * (dot (E.get j).a p - dot (E.get j).a q) + dot (E.get j).a r := by
            unfold dot
            rw [← Finset.sum_sub_distrib, Finset.mul_sum, ← Finset.sum_add_distrib]
            exact Finset.sum_congr rfl fun k _ => by simp; ring
          rw [e]
          have : dot (E.get j).a p = dot (E.get j).a q := by linarith
          rw [this]
          linarith }
    have hsub : P.Solutions ⊆ A := by
      intro x hx
      rw [← hsplit.solutions, mem_both] at hx
      exact hx.1 _ (List.get_mem E j)
    have := affineSpan_le.2 hsub hz
    have h3 : ((E.get j).b : ℝ) + ∑ k, ((E.get j).a k : ℝ) * (z k : ℝ) = 0 := this
    unfold Row.eval
    have h4 : (((1 * (E.get j).b + ∑ k, (E.get j).a k * z k : ℤ)) : ℝ) = 0 := by
      push_cast
      linarith
    exact_mod_cast h4
  unfold projectRows at he'
  by_cases hE : E = []
  · rw [if_pos hE] at he'
    cases he'
  rw [if_neg hE] at he'
  by_cases hI : I = []
  · exfalso
    subst hI
    by_cases hlen : E.length = n
    · apply h1
      rw [← hsplit.solutions]
      intro x hx y hy
      rw [mem_both] at hx hy
      exact unique_solution hind hlen hx.1 hy.1
    · obtain ⟨v, hv, h0⟩ := (c67_not_bounded (fuel := 0) (eqs := fun j : Fin E.length => E.get j) 0 1 (lt_of_le_of_ne hind.le hlen)).2
      have := hdir (fun k => (v k : ℝ)) ((dir_both E [] _).2 ⟨fun r hr => ?_, fun r hr => by cases hr⟩)
      · apply hv
        funext k
        have hk : (v k : ℝ) = 0 := congrFun this k
        exact_mod_cast hk
      · obtain ⟨j, rfl⟩ := List.get_of_mem hr
        have h2 : ∑ k, ((E.get j).a k : ℝ) * (v k : ℝ) = 0 := by exact_mod_cast h0 j
        exact h2
  have hlt : E.length < n := lt_of_le_of_ne hind.le fun hh => hI (hpoint hh)
  rcases preprocess_three (fuel := hermite) (eqs := fun j : Fin E.length => E.get j) 0 1 hI hlt.le with h' | h' | ⟨d, out, p, B, c, hrun⟩
  · rw [h'] at he'
    cases he'
    rfl
  · exact absurd hsol (count_unsolvable hI hlt (by rw [hsplit.solutions]; exact hne) hfin h')
  · rw [hrun] at he'
    cases he'

/-- **C93: answers are found for all polytopes** with more than one point that have an integer point in their affine hull, if the triangulations go through.
`d` is the dimension of the polytope (`LatticeCoordinates.dim_eq`). -/
theorem c93_lattice_total {T : Tools} (hT : T.Ok) (hst : CanonicalizeStrict T.canonicalize) (htri : TriangulationTotal T) (hn : 0 < n) (P : Empty.Problem n) (h : P.Ok)
    (hs : Small P) (h0 : P.rows ≠ []) (hf : P.nonnegFirst = false) (hd : P.Directions = {0}) (h1 : ¬ P.Solutions.Subsingleton)
    (h2 : ∃ z : Fin n → ℤ, (fun k => (z k : ℝ)) ∈ affineSpan ℝ P.Solutions) :
    ∃ (N d : ℕ) (Q : Set (Fin d → ℝ)) (p : Fin n → ℤ) (B : Fin d → Fin n → ℤ) (R : List (Vec d)), LatticeCoordinates P.Solutions Q p B ∧ (interior Q).Nonempty ∧
      (∀ r ∈ R, r ≠ 0) ∧ ∀ (o : VolumeOption) (draws : List ℕ) (hermite k : ℕ), N ≤ hermite → GenericRound R draws k →
      ∃ answers, volumeFile T o draws hermite (text P) = .answers answers ∧ RightLatticeAnswers o P.Solutions answers := by
  have hright := fun o draws hermite => c93_lattice_volume hT hst o draws hermite hn P h hs h0 hf hd
  obtain ⟨N, st, hst', hN⟩ := (c92_rows hT hn P h hs h0 hf hd).2
  cases st with
  | ended en =>
    exfalso
    obtain ⟨z, hz⟩ := h2
    have := fileRows_rows hT P h hs h0 hf hd h1 z hz N en (hN N le_rfl)
    rw [hst'.1] at this
    cases this
  | rows d l =>
    obtain ⟨hd0, hb, p, B, hco⟩ := hst'
    obtain ⟨d, rfl⟩ := Nat.exists_eq_succ_of_ne_zero hd0.ne'
    have hne : P.Solutions.Nonempty := by
      by_contra hne
      exact h1 (by rw [Set.not_nonempty_iff_eq_empty.1 hne]; exact Set.subsingleton_empty)
    have hi := fileRows_interior hT hst P h hs h0 hf hne N (hN N le_rfl)
    obtain ⟨R, hR, hgen⟩ := volumeRows_total hT htri l hb hi
    refine ⟨N, d + 1, _, p, B, R, hco.toLattice, hi, hR, fun o draws hermite k hk hg => ?_⟩
    obtain ⟨as, has⟩ := hgen o draws k hg
    have e : volumeFile T o draws hermite (text P) = .answers as := by
      unfold volumeFile
      rw [hN hermite hk]
      exact has
    exact ⟨as, e, (hright o draws hermite).2 as e⟩

/-- The affine hull of a set with lattice coordinates contains an integer point. -/
theorem LatticeCoordinates.integer_point {A : Set (Fin n → ℝ)} {Q : Set (Fin d → ℝ)} {p : Fin n → ℤ} {B : Fin d → Fin n → ℤ} (h : LatticeCoordinates A Q p B)
    (hQ : (interior Q).Nonempty) : (fun k => (p k : ℝ)) ∈ affineSpan ℝ A := by
  let f : (Fin d → ℝ) →ᵃ[ℝ] (Fin n → ℝ) := (linPart B).toAffineMap + AffineMap.const ℝ _ (fun k => (p k : ℝ))
  have hf : ∀ y, f y = fun k => (p k : ℝ) + ∑ j, y j * (B j k : ℝ) := by
    intro y
    funext k
    simp [f, linPart, add_comm]
  have hA : f '' Q = A := by
    rw [← h.points]
    exact Set.image_congr fun y _ => hf y
  have htop : affineSpan ℝ Q = ⊤ := by
    refine top_unique ?_
    rw [← isOpen_interior.affineSpan_eq_top hQ]
    exact affineSpan_mono ℝ interior_subset
  rw [← hA, ← AffineSubspace.map_span, htop]
  refine ⟨0, trivial, ?_⟩
  rw [hf]
  funext k
  simp

/-- **C93: limits.** No answer is printed for a polytope with at most one point, nor if there is no integer point in its affine hull (although it may have more than one point and a volume). -/
theorem c93_no_answer {T : Tools} (hT : T.Ok) (hst : CanonicalizeStrict T.canonicalize) (o : VolumeOption) (draws : List ℕ) (hermite : ℕ) (hn : 0 < n)
    (P : Empty.Problem n) (h : P.Ok) (hs : Small P) (h0 : P.rows ≠ []) (hf : P.nonnegFirst = false) (hd : P.Directions = {0})
    (hP : P.Solutions.Subsingleton ∨ ∀ z : Fin n → ℤ, (fun k => (z k : ℝ)) ∉ affineSpan ℝ P.Solutions) (answers : List ℚ) :
    volumeFile T o draws hermite (text P) ≠ .answers answers := by
  intro he
  have hr := (c92_rows hT hn P h hs h0 hf hd).1 hermite
  unfold volumeFile at he
  cases e : fileRows T hermite (text P) with
  | ended en =>
    rw [e] at he
    cases he
  | rows d l =>
    rw [e] at hr he
    rcases hr with ⟨hd0, hb, p, B, hco⟩ | hr
    · have hne : P.Solutions.Nonempty := by
        by_contra hne
        have h2 := (Empty.c86_decides T.lp hT.lp P h (Or.inl h0) (by rw [hf]; simp)).2 (Set.not_nonempty_iff_eq_empty.1 hne) hd
        unfold fileRows at e
        rw [tokens_text P hf, h2] at e
        cases e
      have hi := fileRows_interior hT hst P h hs h0 hf hne hermite e
      rcases hP with hP | hP
      · have hsub : (Polyhedron (pairs l)).Subsingleton := by
          rw [← hco.points] at hP
          intro x hx y hy
          exact hco.inj (hP ⟨x, hx, rfl⟩ ⟨y, hy, rfl⟩)
        obtain ⟨x, hx⟩ := hi
        have := full_dot ⟨x, hx⟩ (fun _ => 1) (∑ k, x k) fun y hy => by
          rw [hsub hy (interior_subset hx)]
          simp
        have := congrFun this ⟨0, hd0⟩
        norm_num at this
      · exact hP p (hco.toLattice.integer_point hi)
    · cases hr

end Verif.Whole
