import Verif.Hilbert.Model
import Mathlib.Algebra.Order.Nonneg.Floor
import Mathlib.Algebra.Order.Archimedean.Basic
import Mathlib.Data.NNRat.Floor
import Mathlib.LinearAlgebra.Finsupp.LinearCombination
import Mathlib.LinearAlgebra.Matrix.NonsingularInverse
import Mathlib.Algebra.Group.Submonoid.Membership

/-!
# C101: Hilbert bases from rays
-/

namespace Verif.Hilbert

open Verif.Barvinok (Vec Mat)
open Verif.Regular (listMat)
open Verif.Piped (InPiped)

variable {m : ℕ}

/-! ### Specification -/

/-- A vector with integer entries as one with rational entries. -/
def toQ {n : ℕ} (v : Vec n) : Fin n → ℚ := fun i => v i

/-- The lattice point `p` lies in the cone generated by the vectors of the list: it is a combination with nonnegative (rational) coefficients. -/
def InCone {n : ℕ} (rays : List (Vec n)) (p : Vec n) : Prop := ∃ a : Fin rays.length → ℚ, (∀ i, 0 ≤ a i) ∧ toQ p = ∑ i, a i • toQ (rays.get i)

/-- `p` is the sum of vectors of the set (with repetitions). -/
abbrev SumOf {n : ℕ} (S : Set (Vec n)) (p : Vec n) : Prop := p ∈ AddSubmonoid.closure S

/-- The elements of the Hilbert basis: lattice points of the cone other than zero, that are not sums of two such points. -/
def Irreducible {n : ℕ} (rays : List (Vec n)) (p : Vec n) : Prop :=
  InCone rays p ∧ p ≠ 0 ∧ ∀ x y, InCone rays x → InCone rays y → x + y = p → x = 0 ∨ y = 0

/-- What is expected of zsolve and of the engine for triangulations: zsolve delivers lattice points of the cone that generate all; the cones delivered by the engine have rays of the cone, and cover it. -/
structure Contract (T : Tools m) : Prop where
  zsolve_mem : ∀ k rays l, T.zsolve k rays = some l → ∀ p ∈ l, InCone rays p
  zsolve_gen : ∀ k rays l, T.zsolve k rays = some l → ∀ p, InCone rays p → SumOf {q | q ∈ l} p
  triangulate_rays : ∀ k rays, ∀ c ∈ T.triangulate k rays, ∀ r ∈ c, r ∈ rays
  triangulate_cover : ∀ k rays p, InCone rays p → ∃ c ∈ T.triangulate k rays, InCone c p

/-! ### Cones -/

theorem inCone_iff {n : ℕ} (rays : List (Vec n)) (p : Vec n) : InCone rays p ↔ toQ p ∈ Submodule.span ℚ≥0 (toQ '' {r | r ∈ rays}) := by
  have hr : toQ '' {r | r ∈ rays} = Set.range fun i : Fin rays.length => toQ (rays.get i) := by
    ext x
    constructor
    · rintro ⟨r, hr, rfl⟩
      obtain ⟨i, hi⟩ := List.get_of_mem hr
      exact ⟨i, by rw [← hi]⟩
    · rintro ⟨i, rfl⟩
      exact ⟨_, List.get_mem _ _, rfl⟩
  rw [hr, Submodule.mem_span_range_iff_exists_fun]
  constructor
  · rintro ⟨a, ha, h⟩
    exact ⟨fun i => ⟨a i, ha i⟩, h.symm⟩
  · rintro ⟨a, h⟩
    exact ⟨fun i => (a i : ℚ), fun i => (a i).2, h.symm⟩

theorem InCone.mono {n : ℕ} {c rays : List (Vec n)} (h : ∀ r ∈ c, r ∈ rays) {p : Vec n} (hp : InCone c p) : InCone rays p := by
  rw [inCone_iff] at hp ⊢
  exact Submodule.span_mono (Set.image_mono h) hp

theorem listMat_get (rays : List (Vec (m + 1))) (hl : rays.length = m + 1) (i : Fin rays.length) : rays.get i = listMat rays (Fin.cast hl i) := by
  simp [listMat]

/-- A point of a simplicial cone: floors of the coefficients. -/
theorem simplicial_point (rays : List (Vec (m + 1))) (hl : rays.length = m + 1) {p : Vec (m + 1)} (hp : InCone rays p) :
    ∃ q, InPiped (listMat rays) 0 q ∧ ∃ b : Fin (m + 1) → ℕ, p = q + ∑ i, b i • listMat rays i := by
  obtain ⟨a, ha, hpa⟩ := hp
  have hsum : toQ p = ∑ i : Fin (m + 1), a (Fin.cast hl.symm i) • toQ (listMat rays i) := by
    rw [hpa]
    refine Fintype.sum_equiv (finCongr hl) _ _ fun i => ?_
    rw [listMat_get rays hl]
    rfl
  set a' : Fin (m + 1) → ℚ := fun i => a (Fin.cast hl.symm i) with ha'
  have h0 : ∀ i, 0 ≤ a' i := fun i => ha _
  refine ⟨p - ∑ i, ⌊a' i⌋₊ • listMat rays i, ⟨fun i => Int.fract (a' i), fun i => ⟨Int.fract_nonneg _, Int.fract_lt_one _⟩, fun k => ?_⟩, fun i => ⌊a' i⌋₊, by simp⟩
  have hk : (p k : ℚ) = ∑ i, a' i * (listMat rays i k : ℚ) := by
    have := congrFun hsum k
    simpa [toQ] using this
  have hf : ∀ i, ((⌊a' i⌋₊ : ℕ) : ℚ) = a' i - Int.fract (a' i) := fun i => by
    rw [Int.self_sub_fract, natCast_floor_eq_intCast_floor (h0 i)]
  have hs : ((∑ i, ⌊a' i⌋₊ • listMat rays i) k : ℤ) = ∑ i, (⌊a' i⌋₊ : ℤ) * listMat rays i k := by
    rw [Finset.sum_apply]
    exact Finset.sum_congr rfl fun i _ => by rw [Pi.smul_apply, nsmul_eq_mul]
  rw [Pi.sub_apply, hs, Int.cast_sub, hk, Pi.zero_apply, zero_add, Int.cast_sum, ← Finset.sum_sub_distrib]
  exact Finset.sum_congr rfl fun i _ => by rw [Int.cast_mul, Int.cast_natCast, hf]; ring

theorem listMat_mem (rays : List (Vec (m + 1))) (hl : rays.length = m + 1) (i : Fin (m + 1)) : listMat rays i ∈ rays := by
  have := List.get_mem rays (Fin.cast hl.symm i)
  rwa [listMat_get rays hl] at this

/-- Points of the parallelepiped are in the cone. -/
theorem inPiped_cone (rays : List (Vec (m + 1))) (hl : rays.length = m + 1) {q : Vec (m + 1)} (hq : InPiped (listMat rays) 0 q) : InCone rays q := by
  obtain ⟨a, ha, h⟩ := hq
  refine ⟨fun i => a (Fin.cast hl i), fun i => (ha _).1, ?_⟩
  funext k
  have := h k
  rw [Pi.zero_apply, zero_add] at this
  rw [toQ, this, Finset.sum_apply]
  symm
  refine Fintype.sum_equiv (finCongr hl) _ _ fun i => ?_
  rw [listMat_get rays hl]
  rfl

/-- The parallelepiped of a unimodular cone has no other point than zero. -/
theorem unimodular_piped (A : Mat (m + 1)) (hA : |A.det| = 1) {q : Vec (m + 1)} (hq : InPiped A 0 q) : q = 0 := by
  obtain ⟨a, ha, h⟩ := hq
  have key : ∀ j, A.det * A.det * a j = ((A.det * (Matrix.vecMul q A.adjugate) j : ℤ) : ℚ) := by
    intro j
    have e : ((Matrix.vecMul q A.adjugate) j : ℚ) = ∑ i, a i * ((A * A.adjugate) i j : ℤ) := by
      simp only [Matrix.vecMul, dotProduct, Matrix.mul_apply, Int.cast_sum, Int.cast_mul, Finset.mul_sum]
      rw [Finset.sum_comm]
      refine Finset.sum_congr rfl fun k _ => ?_
      rw [h k, Pi.zero_apply, zero_add, Finset.sum_mul]
      exact Finset.sum_congr rfl fun i _ => by ring
    rw [Matrix.mul_adjugate] at e
    have e2 : ∑ i, a i * (((A.det • (1 : Mat (m + 1))) i j : ℤ) : ℚ) = A.det * a j := by
      rw [Finset.sum_eq_single j]
      · simp; ring
      · intro i _ hij; simp [Matrix.one_apply_ne hij]
      · simp
    rw [e2] at e
    rw [Int.cast_mul, e]; ring
  have hd : (A.det : ℚ) * A.det = 1 := by
    have : A.det * A.det = 1 := by rw [← abs_mul_abs_self, hA]; rfl
    exact_mod_cast this
  have ha0 : ∀ j, a j = 0 := by
    intro j
    have := key j
    rw [hd, one_mul] at this
    obtain ⟨h0, h1⟩ := ha j
    rw [this] at h0 h1
    have g0 : 0 ≤ A.det * (Matrix.vecMul q A.adjugate) j := by exact_mod_cast h0
    have g1 : A.det * (Matrix.vecMul q A.adjugate) j < 1 := by exact_mod_cast h1
    rw [this, show A.det * (Matrix.vecMul q A.adjugate) j = 0 by omega]; rfl
  funext k
  have := h k
  simp [ha0] at this
  exact this

/-! ### The points of the parallelepiped -/

theorem piped_spec (X : Smith.Xgcd) (rays : List (Vec (m + 1))) (hd : (listMat rays).det ≠ 0) (hs : |(listMat rays).det| ≤ Piped.intMax) :
    ∃ pts, piped X rays = some pts ∧ pts.Nodup ∧ (pts.length : ℤ) = |(listMat rays).det| ∧ ∀ p, p ∈ pts ↔ InPiped (listMat rays) 0 p := by
  obtain ⟨F, d, h, hpos, hdual, -, hdvd⟩ := Barvinok.computeDetAndFacets_some (⟨1, 0, listMat rays, 0, none, 0, 0⟩ : Barvinok.Cone (m + 1)) rfl hd
  obtain ⟨pts, h1, h2, h3, h4⟩ := Piped.c13_points_exact X ⟨listMat rays, F, d, (listMat rays).det, 0, 1⟩ ⟨rfl, hd, hdual, hpos, hdvd, one_ne_zero⟩ hs
    (|(listMat rays).det|.toNat + 1) (by push_cast; rw [Int.toNat_of_nonneg (abs_nonneg _)]; exact Int.lt_succ _)
  refine ⟨pts, ?_, h2, h3, fun p => ?_⟩
  · unfold piped
    rw [h]
    dsimp only
    rw [h1]
  · rw [h4 p]
    have : Piped.Input.vertex (⟨listMat rays, F, d, (listMat rays).det, 0, 1⟩ : Piped.Input m) = 0 := by funext k; simp [Piped.Input.vertex]
    rw [this]

/-! ### The invariant -/

/-- The vectors known are those in the file, each once. -/
structure Inv (s : St m) : Prop where
  same : ∀ v, v ∈ s.known ↔ v ∈ s.file
  nodup : s.file.Nodup

theorem insertVector_spec {s : St m} (hs : Inv s) (v : Vec (m + 1)) : Inv (insertVector s v) ∧ ∀ x, x ∈ (insertVector s v).file ↔ x ∈ s.file ∨ x = v := by
  unfold insertVector
  split
  · rename_i h
    refine ⟨hs, fun x => ⟨.inl, fun hx => hx.elim id fun e => e ▸ (hs.same v).1 h⟩⟩
  · rename_i h
    refine ⟨⟨fun x => ?_, ?_⟩, fun x => by simp⟩
    · simp [hs.same, or_comm]
    · refine List.Nodup.append hs.nodup (by simp) ?_
      simpa using fun hv => h ((hs.same v).2 hv)

theorem insertAll_spec (l : List (Vec (m + 1))) : ∀ {s : St m}, Inv s → Inv (insertAll s l) ∧ ∀ x, x ∈ (insertAll s l).file ↔ x ∈ s.file ∨ x ∈ l := by
  induction l with
  | nil => intro s hs; exact ⟨hs, fun x => by simp [insertAll]⟩
  | cons v l ih =>
    intro s hs
    obtain ⟨h1, h2⟩ := insertVector_spec hs v
    obtain ⟨h3, h4⟩ := ih h1
    refine ⟨h3, fun x => ?_⟩
    rw [show insertAll s (v :: l) = insertAll (insertVector s v) l from rfl, h4, h2, List.mem_cons, or_assoc]

/-- What handling a cone does with the file: the new vectors lie in the cone, and with them (or with vectors that were there) and the rays all lattice points are generated. -/
structure Step (rays : List (Vec (m + 1))) (s s' : St m) : Prop where
  inv : Inv s'
  keep : ∀ x ∈ s.file, x ∈ s'.file
  mem : ∀ x ∈ s'.file, x ∈ s.file ∨ InCone rays x
  gen : ∀ p, InCone rays p → SumOf ({r | r ∈ rays} ∪ {v | v ∈ s'.file}) p

theorem sumOf_mono {n : ℕ} {S S' : Set (Vec n)} (h : S ⊆ S') {p : Vec n} (hp : SumOf S p) : SumOf S' p := AddSubmonoid.closure_mono h hp

theorem simplicial_sum (rays : List (Vec (m + 1))) (hl : rays.length = m + 1) (S : Set (Vec (m + 1))) (hr : ∀ r ∈ rays, SumOf S r)
    (hq : ∀ q, InPiped (listMat rays) 0 q → SumOf S q) {p : Vec (m + 1)} (hp : InCone rays p) : SumOf S p := by
  obtain ⟨q, h1, b, rfl⟩ := simplicial_point rays hl hp
  exact add_mem (hq q h1) (sum_mem fun i _ => nsmul_mem (hr _ (listMat_mem rays hl i)) _)

theorem handleList_step (h : List (Vec (m + 1)) → St m → Out (St m)) (hh : ∀ c s s', Inv s → h c s = .ok s' → Step c s s') (rays : List (Vec (m + 1))) (L : List (List (Vec (m + 1)))) :
    ∀ (s s' : St m), Inv s → (∀ c ∈ L, ∀ r ∈ c, r ∈ rays) → handleList h L s = .ok s' →
      Inv s' ∧ (∀ x ∈ s.file, x ∈ s'.file) ∧ (∀ x ∈ s'.file, x ∈ s.file ∨ InCone rays x) ∧ ∀ c ∈ L, ∀ p, InCone c p → SumOf ({r | r ∈ rays} ∪ {v | v ∈ s'.file}) p := by
  induction L with
  | nil =>
    intro s s' hs _ e
    cases e
    exact ⟨hs, fun x hx => hx, fun x hx => .inl hx, by simp⟩
  | cons c L ih =>
    intro s s' hs hc e
    rw [handleList] at e
    split at e
    · rename_i t ht
      have st := hh c s t hs ht
      obtain ⟨i1, i2, i3, i4⟩ := ih t s' st.inv (fun c h => hc c (List.mem_cons_of_mem _ h)) e
      have hcr := hc c List.mem_cons_self
      refine ⟨i1, fun x hx => i2 x (st.keep x hx), fun x hx => ?_, fun c' hc' p hp => ?_⟩
      · rcases i3 x hx with h | h
        · exact (st.mem x h).imp id fun g => g.mono hcr
        · exact .inr h
      · rcases List.mem_cons.1 hc' with rfl | hc'
        · exact sumOf_mono (Set.union_subset_union hcr i2) (st.gen p hp)
        · exact i4 c' hc' p hp
    · cases e
    · cases e

theorem handle_step (X : Smith.Xgcd) {T : Tools m} (hT : Contract T) (P : Params) (hP : P.maxDeterminant ≤ 2 ^ 31) (f : ℕ) :
    ∀ (rays : List (Vec (m + 1))) (s s' : St m), Inv s → handle X T P f rays s = .ok s' → Step rays s s' := by
  induction f with
  | zero => intro rays s s' _ e; cases e
  | succ f ih =>
    intro rays s s' hs e
    have sub : ∀ t : St m, Inv t → t.file = s.file → handleList (handle X T P f) (T.triangulate t.calls rays) { t with calls := t.calls + 1 } = .ok s' → Step rays s s' := by
      intro t ht hf e
      obtain ⟨h1, h2, h3, h4⟩ := handleList_step (handle X T P f) ih rays _ { t with calls := t.calls + 1 } s' ⟨ht.1, ht.2⟩ (hT.triangulate_rays _ _) e
      refine ⟨h1, fun x hx => h2 x (by rw [← hf] at hx; exact hx), fun x hx => (h3 x hx).imp (fun g => by rw [← hf]; exact g) id, fun p hp => ?_⟩
      obtain ⟨c, hc, hpc⟩ := hT.triangulate_cover t.calls rays p hp
      exact h4 c hc p hpc
    rw [handle] at e
    split at e
    · rename_i hu
      cases e
      exact ⟨hs, fun x h => h, fun x h => .inl h, fun p hp => simplicial_sum rays hu.1 _ (fun r hr => AddSubmonoid.subset_closure (.inl hr))
        (fun q hq => by rw [unimodular_piped _ hu.2 hq]; exact zero_mem _) hp⟩
    rename_i hu
    split at e
    · cases e
    rename_i h0
    split at e
    · rename_i hd
      obtain ⟨pts, h1, -, -, h4⟩ := piped_spec X rays (fun h => h0 ⟨hd.1, h⟩) (by have := hd.2; unfold Piped.intMax; omega)
      rw [h1] at e
      dsimp only at e
      split at e
      · cases e
        obtain ⟨i1, i2⟩ := insertAll_spec pts hs
        refine ⟨i1, fun x hx => (i2 x).2 (.inl hx), fun x hx => ((i2 x).1 hx).imp id fun g => inPiped_cone rays hd.1 ((h4 x).1 g), fun p hp => ?_⟩
        exact simplicial_sum rays hd.1 _ (fun r hr => AddSubmonoid.subset_closure (.inl hr))
          (fun q hq => AddSubmonoid.subset_closure (.inr ((i2 q).2 (.inr ((h4 q).2 hq))))) hp
      · cases e
    · dsimp only at e
      generalize (if rays.length = m + 1 then m + 1 else T.numFacets rays) = facets at e
      generalize (if rays.length = m + 1 then 0 else T.numEquations rays) = equations at e
      split at e
      · split at e
        · rename_i homs hz
          split at e
          · cases e
          · cases e
            obtain ⟨i1, i2⟩ := insertAll_spec homs (s := { s with calls := s.calls + 1 }) ⟨hs.1, hs.2⟩
            refine ⟨i1, fun x hx => (i2 x).2 (.inl hx), fun x hx => ((i2 x).1 hx).imp id fun g => hT.zsolve_mem _ _ _ hz x g, fun p hp => ?_⟩
            exact sumOf_mono (fun x hx => .inr ((i2 x).2 (.inr hx))) (hT.zsolve_gen _ _ _ hz p hp)
        · exact sub { s with calls := s.calls + 1 } ⟨hs.1, hs.2⟩ rfl e
      · exact sub s hs rfl e

theorem run_step (X : Smith.Xgcd) {T : Tools m} (hT : Contract T) (P : Params) (hP : P.maxDeterminant ≤ 2 ^ 31) (f : ℕ) (rays : List (Vec (m + 1))) (s : St m)
    (h : run X T P f rays = .ok s) : s.file.Nodup ∧ (∀ x ∈ s.file, InCone rays x) ∧ ∀ p, InCone rays p → SumOf ({r | r ∈ rays} ∪ {v | v ∈ s.file}) p := by
  have h0 : ∀ k, Inv (⟨[], [], k⟩ : St m) := fun k => ⟨fun v => by simp, List.nodup_nil⟩
  unfold run at h
  split at h
  · obtain ⟨h1, -, h3, h4⟩ := handleList_step _ (handle_step X hT P hP f) rays _ _ s (h0 1) (hT.triangulate_rays _ _) h
    refine ⟨h1.nodup, fun x hx => (h3 x hx).resolve_left (by simp), fun p hp => ?_⟩
    obtain ⟨c, hc, hpc⟩ := hT.triangulate_cover 0 rays p hp
    exact h4 c hc p hpc
  · have st := handle_step X hT P hP f rays _ s (h0 0) h
    exact ⟨st.inv.nodup, fun x hx => (st.mem x hx).resolve_left (by simp), st.gen⟩

/-- **C101.** For every list of rays and all options: whenever the program ends normally, the file lists lattice points of the cone, each once. -/
theorem c101_sound (X : Smith.Xgcd) {T : Tools m} (hT : Contract T) (P : Params) (hP : P.maxDeterminant ≤ 2 ^ 31) (f : ℕ) (rays : List (Vec (m + 1))) (s : St m)
    (h : run X T P f rays = .ok s) : s.file.Nodup ∧ ∀ x ∈ s.file, InCone rays x :=
  ⟨(run_step X hT P hP f rays s h).1, (run_step X hT P hP f rays s h).2.1⟩

/-- **C101.** Every lattice point of the cone is a sum of vectors of the file and rays of the cone read. -/
theorem c101_generates (X : Smith.Xgcd) {T : Tools m} (hT : Contract T) (P : Params) (hP : P.maxDeterminant ≤ 2 ^ 31) (f : ℕ) (rays : List (Vec (m + 1))) (s : St m)
    (h : run X T P f rays = .ok s) (p : Vec (m + 1)) (hp : InCone rays p) : SumOf ({r | r ∈ rays} ∪ {v | v ∈ s.file}) p :=
  (run_step X hT P hP f rays s h).2.2 p hp

theorem irreducible_mem {n : ℕ} {rays : List (Vec n)} {S : Set (Vec n)} (hS : ∀ x ∈ S, InCone rays x) {p : Vec n} (hp : Irreducible rays p) (h : SumOf S p) : p ∈ S := by
  have cone : ∀ x, SumOf S x → InCone rays x := by
    intro x hx
    rw [inCone_iff]
    induction hx using AddSubmonoid.closure_induction with
    | mem x hx => exact (inCone_iff _ _).1 (hS x hx)
    | zero => rw [show toQ (0 : Vec n) = 0 by funext i; simp [toQ]]; exact zero_mem _
    | add x y _ _ hx hy => rw [show toQ (x + y) = toQ x + toQ y by funext i; simp [toQ]]; exact add_mem hx hy
  suffices H : ∀ x, SumOf S x → x = p → p ∈ S from H p h rfl
  intro x hx
  induction hx using AddSubmonoid.closure_induction with
  | mem x hx => intro e; exact e ▸ hx
  | zero => intro e; exact absurd e.symm hp.2.1
  | add x y hx hy ihx ihy =>
    intro e
    rcases hp.2.2 x y (cone x hx) (cone y hy) e with rfl | rfl
    · exact ihy (by simpa using e)
    · exact ihx (by simpa using e)

theorem ray_inCone {n : ℕ} {rays : List (Vec n)} {r : Vec n} (h : r ∈ rays) : InCone rays r :=
  (inCone_iff _ _).2 (Submodule.subset_span ⟨r, h, rfl⟩)

/-- **C101.** Every element of the Hilbert basis of the cone is in the file, or is one of the rays of the cone read. -/
theorem c101_hilbert (X : Smith.Xgcd) {T : Tools m} (hT : Contract T) (P : Params) (hP : P.maxDeterminant ≤ 2 ^ 31) (f : ℕ) (rays : List (Vec (m + 1))) (s : St m)
    (h : run X T P f rays = .ok s) (p : Vec (m + 1)) (hp : Irreducible rays p) : p ∈ s.file ∨ p ∈ rays := by
  have := irreducible_mem (S := {r | r ∈ rays} ∪ {v | v ∈ s.file})
    (fun x hx => hx.elim ray_inCone fun g => (c101_sound X hT P hP f rays s h).2 x g) hp (c101_generates X hT P hP f rays s h p hp.1)
  exact this.symm

/-- **C101.** The program ends for all rays: with the default options (no limit for the numbers of facets and the time, no enumeration), if all cones with as many rays as coordinates that are handled have
independent rays, and zsolve delivers at least as many vectors as the dimension. -/
theorem c101_ends (X : Smith.Xgcd) (T : Tools m) (P : Params) (rays : List (Vec (m + 1))) (hn : P.maxDeterminant ≤ 0) (hm : (m + 1 : ℤ) < P.maxFacets) (hf : ∀ c, (T.numFacets c : ℤ) < P.maxFacets)
    (hz : ∀ k c, ∃ l, T.zsolve k c = some l ∧ (m + 1 : ℤ) ≤ l.length + (if c.length = m + 1 then 0 else T.numEquations c : ℕ))
    (hd : ∀ c, (c = rays ∨ c ∈ T.triangulate 0 rays) → c.length = m + 1 → (listMat c).det ≠ 0) : ∃ s, run X T P 1 rays = .ok s := by
  have one : ∀ c, (c = rays ∨ c ∈ T.triangulate 0 rays) → ∀ s, ∃ s', handle X T P 1 c s = .ok s' := by
    intro c hc s
    rw [handle]
    split
    · exact ⟨_, rfl⟩
    rw [if_neg fun h => hd c hc h.1 h.2, if_neg fun h => absurd h.2 (by have := abs_nonneg (listMat c).det; omega)]
    dsimp only
    obtain ⟨l, h1, h2⟩ := hz s.calls c
    rw [if_pos (by split; exacts [by push_cast; exact hm, hf c]), h1]
    dsimp only
    rw [if_neg (by omega)]
    exact ⟨_, rfl⟩
  unfold run
  split
  · have : ∀ L : List (List (Vec (m + 1))), (∀ c ∈ L, c ∈ T.triangulate 0 rays) → ∀ s, ∃ s', handleList (handle X T P 1) L s = .ok s' := by
      intro L
      induction L with
      | nil => intro _ s; exact ⟨s, rfl⟩
      | cons c L ih =>
        intro h s
        obtain ⟨s', e⟩ := one c (.inr (h c List.mem_cons_self)) s
        rw [handleList, e]
        exact ih (fun c hc => h c (List.mem_cons_of_mem _ hc)) s'
    exact this _ (fun c h => h) _
  · exact one rays (.inl rfl) _

/-! ### What fails -/

/-- **C101, what fails.** The rays of a unimodular cone are its Hilbert basis, but with `--no-initial-triangulation` the file is empty. -/
theorem c101_unimodular_violation (X : Smith.Xgcd) (T : Tools m) (P : Params) (hi : P.initialTriangulation = false) (rays : List (Vec (m + 1))) (hl : rays.length = m + 1) (hd : |(listMat rays).det| = 1)
    (f : ℕ) : ∃ s, run X T P (f + 1) rays = .ok s ∧ s.file = [] := by
  refine ⟨⟨[], [], 0⟩, ?_, rfl⟩
  rw [run, hi, if_neg (by decide), handle, if_pos ⟨hl, hd⟩]

/-- **C101, what fails.** If a simplicial cone that is not unimodular is enumerated, the zero vector is written to the file. -/
theorem c101_zero_violation (X : Smith.Xgcd) (T : Tools m) (P : Params) (hi : P.initialTriangulation = false) (hP : P.maxDeterminant ≤ 2 ^ 31) (rays : List (Vec (m + 1))) (hl : rays.length = m + 1)
    (hd : 1 < |(listMat rays).det|) (hm : |(listMat rays).det| < P.maxDeterminant) (f : ℕ) (s : St m) (h : run X T P f rays = .ok s) : 0 ∈ s.file := by
  rw [run, hi, if_neg (by decide)] at h
  cases f with
  | zero => cases h
  | succ f =>
    have h0 : (listMat rays).det ≠ 0 := fun e => by rw [e] at hd; simp at hd
    rw [handle, if_neg (fun g => by omega), if_neg (fun g => h0 g.2), if_pos ⟨hl, hm⟩] at h
    obtain ⟨pts, h1, -, -, h4⟩ := piped_spec X rays h0 (by unfold Piped.intMax; omega)
    rw [h1] at h
    dsimp only at h
    split at h
    · cases h
      refine ((insertAll_spec pts (s := ⟨[], [], 0⟩) ⟨fun v => by simp, List.nodup_nil⟩).2 0).2 (.inr ((h4 0).2 ⟨0, fun i => ⟨le_rfl, one_pos⟩, fun k => by simp⟩))
    · cases h

/-- **C101, what fails.** If the limit for the number of facets is at most the number of coordinates, and the enumeration is not used for its determinant, a simplicial cone that is not unimodular is subdivided
for ever, since the engine hands it back. -/
theorem c101_hangs (X : Smith.Xgcd) (T : Tools m) (P : Params) (hm : P.maxFacets ≤ (m + 1 : ℕ)) (rays : List (Vec (m + 1))) (hl : rays.length = m + 1) (hd : 1 < |(listMat rays).det|)
    (he : P.maxDeterminant ≤ |(listMat rays).det|) (ht : ∀ k, T.triangulate k rays = [rays]) (f : ℕ) : run X T P f rays = .fuel := by
  have h0 : (listMat rays).det ≠ 0 := fun e => by rw [e] at hd; simp at hd
  have main : ∀ f s, handle X T P f rays s = .fuel := by
    intro f
    induction f with
    | zero => intro s; rfl
    | succ f ih =>
      intro s
      rw [handle, if_neg (fun g => by omega), if_neg (fun g => h0 g.2), if_neg (fun g => by omega)]
      dsimp only
      rw [if_neg (by rw [if_pos hl]; omega), ht, handleList, ih]
  unfold run
  split
  · rw [ht, handleList, main]
  · exact main _ _

/-- **C101, what fails.** A cone with as many rays as coordinates, but dependent rays (as the cone over a square in a space with a dimension more), ends the program with a failed assertion. -/
theorem c101_dependent_violation (X : Smith.Xgcd) (T : Tools m) (P : Params) (hi : P.initialTriangulation = false) (rays : List (Vec (m + 1))) (hl : rays.length = m + 1) (hd : (listMat rays).det = 0) (f : ℕ) :
    run X T P (f + 1) rays = .abort := by
  rw [run, hi, if_neg (by decide), handle, if_neg (by rw [hd]; simp), if_pos ⟨hl, hd⟩]

end Verif.Hilbert
