import Verif.Digging.Main

/-!
# Every run of `SolveIP`

Specification: cones represent a set of lattice points if their signed generating functions add up to the one of the set, up to functions that a Laurent
polynomial kills (sums along lines).
-/

namespace Verif.Digging

open Verif.Barvinok (Vec)
open Verif.ExpSubst
open Verif.PolySubst (den' OffCone)

variable {n : ℕ}

/-- **Specification.** Every cone has one lattice point in its parallelepiped, at least one ray and the sign 1 or -1; to every cone belongs a function `K`
(for delivered cones: the indicator of its lattice points) whose generating function is `x^point / ∏ (1 - x^ray)`, and the signed functions add up to the indicator of
`A`, up to a function that some non-zero Laurent polynomial kills. -/
structure Represents (cones : List (OffCone n)) (A : Set (Vec n)) : Prop where
  one : ∀ C ∈ cones, ∃ pt, C.points = [pt]
  rays : ∀ C ∈ cones, C.rays ≠ []
  sign : ∀ C ∈ cones, C.coefficient = 1 ∨ C.coefficient = -1
  sum : ∃ l : List (OffCone n × (Lat n → ℚ)), l.map Prod.fst = cones ∧ (∀ b ∈ l, act (den' b.1.rays) b.2 = emb (gf b.1.points)) ∧
    ∃ g : Lat n → ℚ, (∃ L : LP n, L ≠ 0 ∧ act L g = 0) ∧ ∀ z : Vec n, (l.map fun b => (b.1.coefficient : ℚ) * b.2 z).sum = A.indicator 1 z + g z

/-- No ray is orthogonal to the cost. -/
def Generic (cones : List (OffCone n)) (cost : Vec n) : Prop := ∀ C ∈ cones, ∀ r ∈ C.rays, inner cost r ≠ 0

/-- The costs tried one after the other: the given one, then perturbations of it. -/
def tried (cones : List (OffCone n)) (cost : Vec n) (draws : ℕ → List (ℕ × ℕ)) (current : Vec n) : ℕ → Vec n
  | 0 => current
  | i + 1 => perturb cones cost (draws i)

theorem turn_abs (cost r : Vec n) : inner cost (turn cost r) = -|inner cost r| := by
  unfold turn
  by_cases h : 0 < inner cost r
  · rw [if_pos h, inner_neg, abs_of_pos h]
  · rw [if_neg h, abs_of_nonpos (by omega)]; ring

/-! ## The constructor never fails -/

theorem mkInfo_total (cost : Vec n) (C : OffCone n) (hp : ∃ pt, C.points = [pt]) (hr : C.rays ≠ []) :
    ∃ c, mkInfo cost C = some c ∧ (c.zeroFlag = true ↔ ∃ r ∈ C.rays, inner cost r = 0) := by
  obtain ⟨pt, hp⟩ := hp
  obtain ⟨r0, rs, hrs⟩ := List.exists_cons_of_ne_nil hr
  set vals : List ℤ := (C.rays.map fun r => inner cost r).map fun s => if s > 0 then -1 * s else s with hvals
  set sorted := sortS (C.rays.length - 1) (vals.zip (List.range C.rays.length)) with hsorted
  have hlen1 : (vals.zip (List.range C.rays.length)).length = C.rays.length := by simp [hvals]
  obtain ⟨s1, s2⟩ := sortS_spec (C.rays.length - 1) (vals.zip (List.range C.rays.length)) (by rw [hlen1]; omega)
  rw [← hsorted] at s1
  have hslen : sorted.length = C.rays.length := s1.length_eq.trans hlen1
  have hsne : sorted.map (·.1) ≠ [] := by
    intro hcon
    have : (sorted.map (·.1)).length = 0 := by rw [hcon]; rfl
    rw [List.length_map, hslen, hrs] at this
    simp at this
  obtain ⟨y, s', hys⟩ := List.exists_cons_of_ne_nil hsne
  obtain ⟨heap, e1, -⟩ := c78_add vkey ((List.replicate C.rays.length 0).set 0 1, y) (Heap.empty : VHeap) (c78_empty vkey).1
  have hmk : mkInfo cost C = some {
      coefficient := (C.rays.map fun r => inner cost r).foldl (fun x s => if s > 0 then x * -1 else x) C.coefficient
      numer := (C.rays.map fun r => inner cost r).foldl (fun x s => if s > 0 then x - s else x) (inner pt cost)
      point := pt
      rays := C.rays
      signs := (C.rays.map fun r => inner cost r).map fun s => if s > 0 then 1 else -1
      svals := y :: s'
      order := sorted.map (·.2)
      zeroFlag := (C.rays.map fun r => inner cost r).any (· == 0)
      heap := heap
      vectors := [List.replicate C.rays.length 0]
      expansion := 0
      current := (C.rays.map fun r => inner cost r).foldl (fun x s => if s > 0 then x - s else x) (inner pt cost) } := by
    unfold mkInfo
    rw [hp, hrs]
    dsimp only
    rw [← hrs, ← hvals, ← hsorted, hys]
    dsimp only
    rw [e1]
  refine ⟨_, hmk, ?_⟩
  show List.any _ _ = true ↔ _
  rw [List.any_eq_true]
  constructor
  · rintro ⟨x, hx, h0⟩
    obtain ⟨r, hr, rfl⟩ := List.mem_map.1 hx
    exact ⟨r, hr, by simpa using h0⟩
  · rintro ⟨r, hr, h0⟩
    exact ⟨_, List.mem_map.2 ⟨r, hr, rfl⟩, by simpa using h0⟩

/-! ## The heap of cones -/

/-- The turned cone. -/
def datum (cost : Vec n) (fs : OffCone n → List (Vec n)) (C : OffCone n) : Datum n :=
  ⟨C.coefficient * turnSign cost C.rays, apex cost (C.points.headD 0) C.rays, fs C⟩

/-- The hash table is too small: for some cone, a value `k` of the cost above all feasible values is followed by a value `t` with more exponent vectors than
the hash table has places (`fs`: the turned rays, in some order). -/
def TooSmall (H : Hashing) (cones : List (OffCone n)) (cost : Vec n) (matrix : List (ℤ × Vec n)) : Prop :=
  ∃ C ∈ cones, ∃ fs : List (Vec n), fs.Perm (C.rays.map (turn cost)) ∧ ∃ k t, (∀ z, feasible matrix z = true → inner cost z < k) ∧
    Follows cost (datum cost (fun _ => fs) C) k t ∧ H.size < ((datum cost (fun _ => fs) C).at cost t).ncard

/-- A zero: the heap is given up; no other failure. -/
theorem buildHeap_zero (cost : Vec n) : ∀ (cones : List (OffCone n)) (h : Heap (Info n)), h.Ok ikey → (∀ C ∈ cones, ∃ pt, C.points = [pt]) →
    (∀ C ∈ cones, C.rays ≠ []) → ¬ Generic cones cost → buildHeap cost cones h = .ok none := by
  intro cones
  induction cones with
  | nil =>
    intro h _ _ _ hg
    exact absurd (fun C hC => by cases hC) hg
  | cons C Cs ih =>
    intro h ho h1 h2 hg
    obtain ⟨c, e1, e2⟩ := mkInfo_total cost C (h1 C List.mem_cons_self) (h2 C List.mem_cons_self)
    obtain ⟨h', e3, o3, -⟩ := c78_add ikey c h ho
    rw [buildHeap, e1]
    dsimp only
    rw [e3]
    dsimp only
    by_cases hz : c.zeroFlag = true
    · rw [if_pos hz]
    · rw [if_neg hz]
      refine ih h' o3 (fun D hD => h1 D (List.mem_cons_of_mem _ hD)) (fun D hD => h2 D (List.mem_cons_of_mem _ hD)) fun hg' => hg ?_
      intro D hD r hr h0
      rcases List.mem_cons.1 hD with rfl | hD
      · exact hz (e2.2 ⟨r, hr, h0⟩)
      · exact hg' D hD r hr h0

/-- No zero: the heap contains all cones. -/
theorem buildHeap_ok (cost : Vec n) (B : ℤ) (fs : OffCone n → List (Vec n)) : ∀ (cones : List (OffCone n)) (h : Heap (Info n)) (as : Multiset (Datum n)), h.Ok ikey →
    Multiset.Rel (Tracks cost B) as h.elems →
    (∀ C ∈ cones, ∃ c, mkInfo cost C = some c ∧ c.zeroFlag = false ∧ Tracks cost B (datum cost fs C) c) →
    ∃ h', buildHeap cost cones h = .ok (some h') ∧ h'.Ok ikey ∧
      Multiset.Rel (Tracks cost B) (as + ((cones.map (datum cost fs) : List (Datum n)) : Multiset (Datum n))) h'.elems := by
  intro cones
  induction cones with
  | nil =>
    intro h as ho hr _
    exact ⟨h, rfl, ho, by simpa using hr⟩
  | cons C Cs ih =>
    intro h as ho hr hC
    obtain ⟨c, e1, e2, e3⟩ := hC C List.mem_cons_self
    obtain ⟨h1, e4, o4, m4, -⟩ := c78_add ikey c h ho
    obtain ⟨h2, e5, o5, r5⟩ := ih h1 (datum cost fs C ::ₘ as) o4 (by rw [m4]; exact Multiset.Rel.cons e3 hr) fun D hD => hC D (List.mem_cons_of_mem _ hD)
    refine ⟨h2, ?_, o5, ?_⟩
    · rw [buildHeap, e1]
      dsimp only
      rw [e4]
      dsimp only
      rw [e2]
      exact e5
    · have : as + ((List.map (datum cost fs) (C :: Cs) : List (Datum n)) : Multiset (Datum n)) =
          datum cost fs C ::ₘ as + ((List.map (datum cost fs) Cs : List (Datum n)) : Multiset (Datum n)) := by
        rw [List.map_cons, ← Multiset.cons_coe, Multiset.add_cons, Multiset.cons_add]
      rw [this]
      exact r5

theorem lincomb_nonpos {cost : Vec n} {fs : List (Vec n)} (h : ∀ f ∈ fs, inner cost f < 0) (e : List ℕ) : inner cost (lincomb e fs) ≤ 0 := by
  induction e generalizing fs with
  | nil => simp [lincomb, inner_zero]
  | cons x e ih =>
    cases fs with
    | nil => simp [lincomb, inner_zero]
    | cons f fs =>
      have e1 : lincomb (x :: e) (f :: fs) = (x : ℤ) • f + lincomb e fs := by simp [lincomb]
      rw [e1, inner_add, inner_smul]
      have h1 := ih fun g hg => h g (List.mem_cons_of_mem _ hg)
      have h2 : (x : ℤ) * inner cost f ≤ 0 := mul_nonpos_of_nonneg_of_nonpos (Int.natCast_nonneg _) (h f List.mem_cons_self).le
      omega

/-- **The start.** With a generic cost, the loop begins with a heap that stands for the set. -/
theorem start {cones : List (OffCone n)} {A : Set (Vec n)} (hrep : Represents cones A) {cost : Vec n} (hgen : Generic cones cost)
    (hdesc : Descending cost (A.indicator (1 : Vec n → ℚ))) (matrix : List (ℤ × Vec n)) (single : Bool) (hfeas : ∀ z, feasible matrix z = true → z ∈ A)
    (hexact : single = false → ∀ z ∈ A, feasible matrix z = true) :
    ∃ fs : OffCone n → List (Vec n), (∀ C ∈ cones, (fs C).Perm (C.rays.map (turn cost))) ∧ Setting cost (cones.map (datum cost fs)) A matrix single ∧
      ∃ h B, buildHeap cost cones .empty = .ok (some h) ∧ State cost (cones.map (datum cost fs)) matrix B h := by
  have hex : ∀ C ∈ cones, ∃ fs : List (Vec n), ∃ c, mkInfo cost C = some c ∧ CInv (C.coefficient * turnSign cost C.rays) c ∧ c.expansion = 0 ∧
      fs.Perm (C.rays.map (turn cost)) ∧ StandsFor cost c (apex cost (C.points.headD 0) C.rays) fs := by
    intro C hC
    obtain ⟨pt, hpt⟩ := hrep.one C hC
    obtain ⟨c, fs, h1, h2, h3, h4, h5⟩ := mkInfo_spec cost C pt [] hpt (hrep.rays C hC) (hgen C hC) (hrep.sign C hC)
    exact ⟨fs, c, h1, h2, h3, h4, by rw [hpt]; exact h5⟩
  choose! fs hfs using hex
  have hneg : ∀ C ∈ cones, ∀ f ∈ fs C, inner cost f < 0 := by
    intro C hC f hf
    obtain ⟨c, -, -, -, h4, -⟩ := hfs C hC
    obtain ⟨r, hr, rfl⟩ := List.mem_map.1 (h4.mem_iff.1 hf)
    exact turn_neg (hgen C hC r hr)
  have hset : Setting cost (cones.map (datum cost fs)) A matrix single := by
    refine ⟨?_, ?_, hfeas, hexact⟩
    · intro d hd f hf
      obtain ⟨C, hC, rfl⟩ := List.mem_map.1 hd
      exact hneg C hC f hf
    · obtain ⟨l, hl, hK, g, hg, hsum⟩ := hrep.sum
      have hmem : ∀ b ∈ l, b.1 ∈ cones := fun b hb => by rw [← hl]; exact List.mem_map.2 ⟨b, hb, rfl⟩
      have key := fun z => formal_identity cost l (fun b => (b.1.coefficient : ℚ)) (fun b => b.1.rays) (fun b => gf b.1.points)
        (fun b hb r hr h0 => hgen b.1 (hmem b hb) r hr (by rw [h0]; exact inner_zero _)) (fun b => b.2)
        (fun b => expand (turnSign cost b.1.rays) (apex cost (b.1.points.headD 0) b.1.rays) (fs b.1)) hK
        (fun b hb => by
          obtain ⟨pt, hpt⟩ := hrep.one b.1 (hmem b hb)
          obtain ⟨c, -, -, -, h4, -⟩ := hfs b.1 (hmem b hb)
          show act _ _ = emb (gf b.1.points)
          rw [hpt]
          exact act_expand pt b.1.rays (fs b.1) h4 (hgen b.1 (hmem b hb)))
        (fun b hb => expand_descending _ _ (hneg b.1 (hmem b hb)))
        (A.indicator 1) hdesc g hg hsum z
      have hsum2 : ∀ z, ((cones.map (datum cost fs)).map fun d => expand d.sg d.p d.fs z).sum = A.indicator (1 : Vec n → ℚ) z := by
        intro z
        rw [← key z, ← hl, List.map_map, List.map_map]
        congr 1
        refine List.map_congr_left fun b _ => ?_
        simp only [Function.comp_apply, datum, expand]
        push_cast
        ring
      intro z
      rw [hsum2 z]
      exact ⟨fun hz => by rw [Set.indicator_of_mem hz]; rfl, fun hz => Set.indicator_of_notMem hz _⟩
  obtain ⟨B, hB⟩ : ∃ B : ℤ, ∀ C ∈ cones, inner cost (apex cost (C.points.headD 0) C.rays) < B := by
    have : ∀ l : List (OffCone n), ∃ B : ℤ, ∀ C ∈ l, inner cost (apex cost (C.points.headD 0) C.rays) < B := by
      intro l
      induction l with
      | nil => exact ⟨0, fun C hC => by cases hC⟩
      | cons C l ih =>
        obtain ⟨B, hB⟩ := ih
        refine ⟨max B (inner cost (apex cost (C.points.headD 0) C.rays) + 1), fun D hD => ?_⟩
        rcases List.mem_cons.1 hD with rfl | hD
        · exact lt_of_lt_of_le (lt_add_one _) (le_max_right _ _)
        · exact (hB D hD).trans_le (le_max_left _ _)
    exact this cones
  have htr : ∀ C ∈ cones, ∃ c, mkInfo cost C = some c ∧ c.zeroFlag = false ∧ Tracks cost B (datum cost fs C) c := by
    intro C hC
    obtain ⟨c, h1, h2, h3, h4, h5⟩ := hfs C hC
    have hcur : c.current = inner cost (apex cost (C.points.headD 0) C.rays) := by rw [h2.cur, h3, h5.numer, add_zero]
    refine ⟨c, h1, h2.flag, h2, h5, by rw [hcur]; exact hB C hC, fun e _ _ => ?_⟩
    show inner cost (apex cost (C.points.headD 0) C.rays + lincomb e (fs C)) ≤ c.current
    rw [inner_add, hcur]
    have := lincomb_nonpos (hneg C hC) e
    omega
  obtain ⟨h, e1, o1, r1⟩ := buildHeap_ok cost B fs cones .empty 0 (c78_empty ikey).1 (by rw [(c78_empty ikey).2]; exact Multiset.Rel.zero) htr
  refine ⟨fs, fun C hC => (hfs C hC).choose_spec.2.2.2.1, hset, h, B, e1, o1, by simpa using r1, fun z hz => ?_⟩
  obtain ⟨d, hd, e, -, hze⟩ := covered (cost := cost) _ A (fun z hz => (hset.sum z).1 hz) z (hfeas z hz)
  obtain ⟨C, hC, rfl⟩ := List.mem_map.1 hd
  rw [← hze, inner_add]
  have h1 := lincomb_nonpos (hneg C hC) e
  have h2 := hB C hC
  show inner cost (apex cost (C.points.headD 0) C.rays) + inner cost (lincomb e (fs C)) < B
  omega

theorem Overflow.tooSmall {H : Hashing} {cones : List (OffCone n)} {cost : Vec n} {fs : OffCone n → List (Vec n)} {matrix : List (ℤ × Vec n)}
    (hfs : ∀ C ∈ cones, (fs C).Perm (C.rays.map (turn cost))) (h : Overflow H cost (cones.map (datum cost fs)) matrix) : TooSmall H cones cost matrix := by
  obtain ⟨d, hd, k, t, h1, h2, h3⟩ := h
  obtain ⟨C, hC, rfl⟩ := List.mem_map.1 hd
  exact ⟨C, hC, fs C, hfs C hC, k, t, h1, h2, h3⟩

/-- If there is a feasible point, some size of the hash table suffices. -/
theorem table_suffices (cones : List (OffCone n)) (hrays : ∀ C ∈ cones, C.rays ≠ []) (cost : Vec n) (hgen : Generic cones cost) (matrix : List (ℤ × Vec n)) (x : Vec n)
    (hx : feasible matrix x = true) : ∃ size, ∀ H : Hashing, size ≤ H.size → ¬ TooSmall H cones cost matrix := by
  have key : ∀ C ∈ cones, ∃ size, ∀ fs : List (Vec n), fs.Perm (C.rays.map (turn cost)) → ∀ k t, (∀ z, feasible matrix z = true → inner cost z < k) →
      Follows cost (datum cost (fun _ => fs) C) k t → ((datum cost (fun _ => fs) C).at cost t).ncard ≤ size := by
    intro C hC
    let M : ℕ := (inner cost (apex cost (C.points.headD 0) C.rays) - inner cost x + (C.rays.map fun r => |inner cost r|).sum).toNat
    let W : Set (List ℕ) := {e : List ℕ | e.length = C.rays.length ∧ ∀ y ∈ e, y ∈ Set.Iic M}
    have hW : W.Finite := level_finite.fin_lists C.rays.length (Set.Iic M) (Set.finite_Iic M)
    refine ⟨W.ncard, fun fs hfs k t hk hft => Set.ncard_le_ncard ?_ hW⟩
    have hneg : ∀ f ∈ fs, inner cost f < 0 := by
      intro f hf
      obtain ⟨r, hr, rfl⟩ := List.mem_map.1 (hfs.mem_iff.1 hf)
      exact turn_neg (hgen C hC r hr)
    have hlen : fs.length = C.rays.length := by rw [hfs.length_eq, List.length_map]
    obtain ⟨f, fs', rfl⟩ : ∃ f fs', fs = f :: fs' := List.exists_cons_of_ne_nil (by
      intro h
      rw [h] at hlen
      exact hrays C hC (List.length_eq_zero_iff.1 hlen.symm))
    have hsmall : -inner cost f ≤ (C.rays.map fun r => |inner cost r|).sum := by
      obtain ⟨r, hr, hrf⟩ := List.mem_map.1 (hfs.mem_iff.1 List.mem_cons_self)
      rw [← hrf, turn_abs, neg_neg]
      refine List.single_le_sum ?_ _ (List.mem_map.2 ⟨r, hr, rfl⟩)
      intro y hy
      obtain ⟨r, -, rfl⟩ := List.mem_map.1 hy
      exact abs_nonneg _
    obtain ⟨h1, ⟨e0, h2⟩, -, h4⟩ := hft
    have ht : k + inner cost f ≤ t := by
      by_contra hc
      obtain ⟨a, b⟩ := h2
      obtain ⟨y, e1, rfl⟩ : ∃ y e1, e0 = y :: e1 := List.exists_cons_of_ne_nil (by
        intro h
        rw [h] at a
        exact absurd a (by simp [datum]))
      have hin : (y + 1) :: e1 ∈ (datum cost (fun _ => f :: fs') C).at cost (k + inner cost f) := by
        refine ⟨by simpa [datum] using a, ?_⟩
        rw [← b, inner_add, inner_add, inner_lincomb, inner_lincomb]
        show _ + dotL ((y + 1) :: e1) (inner cost f :: fs'.map (inner cost)) = _ + dotL (y :: e1) (inner cost f :: fs'.map (inner cost)) + _
        rw [dotL_cons, dotL_cons]
        push_cast
        ring
      rw [h4 _ (by omega) (by have := hneg f List.mem_cons_self; omega)] at hin
      exact hin
    rintro e ⟨h5, h6⟩
    have h5' : e.length = (f :: fs').length := h5
    refine ⟨h5'.trans hlen, fun y hy => ?_⟩
    have h7 := dotL_le (s := (f :: fs').map (inner cost)) (by
      intro y hy
      obtain ⟨g, hg, rfl⟩ := List.mem_map.1 hy
      exact hneg g hg) (e := e) (by rw [List.length_map]; exact h5')
    have h8 := le_sum_of_mem hy
    rw [inner_add, inner_lincomb] at h6
    have h9 := hk x hx
    change inner cost (apex cost (C.points.headD 0) C.rays) + dotL e ((f :: fs').map (inner cost)) = t at h6
    show y ≤ M
    omega
  obtain ⟨size, hsize⟩ : ∃ size, ∀ C ∈ cones, ∀ fs : List (Vec n), fs.Perm (C.rays.map (turn cost)) → ∀ k t, (∀ z, feasible matrix z = true → inner cost z < k) →
      Follows cost (datum cost (fun _ => fs) C) k t → ((datum cost (fun _ => fs) C).at cost t).ncard ≤ size := by
    clear hrays hgen
    induction cones with
    | nil => exact ⟨0, fun C hC => by cases hC⟩
    | cons C cones ih =>
      obtain ⟨a, ha⟩ := key C List.mem_cons_self
      obtain ⟨b, hb⟩ := ih fun D hD => key D (List.mem_cons_of_mem _ hD)
      refine ⟨max a b, fun D hD fs hfs k t hk hf => ?_⟩
      rcases List.mem_cons.1 hD with rfl | hD
      · exact (ha fs hfs k t hk hf).trans (le_max_left _ _)
      · exact (hb D hD fs hfs k t hk hf).trans (le_max_right _ _)
  refine ⟨size, fun H hH => ?_⟩
  rintro ⟨C, hC, fs, hfs, k, t, h1, h2, h3⟩
  have := hsize C hC fs hfs k t h1 h2
  omega

/-! ## The perturbation loop -/

theorem prepare_spec (cones : List (OffCone n)) (hone : ∀ C ∈ cones, ∃ pt, C.points = [pt]) (hrays : ∀ C ∈ cones, C.rays ≠ [])
    (cost : Vec n) (single : Bool) (hbuild : ∀ c, Generic cones c → ∃ h, buildHeap c cones .empty = .ok (some h)) : ∀ (tries : ℕ) (draws : ℕ → List (ℕ × ℕ)) (current : Vec n) (count : ℕ),
    (∃ i h, i < tries ∧ prepare cones cost single tries draws current count = .ok (h, count + i) ∧ buildHeap (tried cones cost draws current i) cones .empty = .ok (some h) ∧
      Generic cones (tried cones cost draws current i) ∧ (∀ j < i, ¬ Generic cones (tried cones cost draws current j)) ∧ (single = true → i = 0)) ∨
    (prepare cones cost single tries draws current count = .error .exit1 ∧ single = true ∧ ¬ Generic cones current) ∨
    (prepare cones cost single tries draws current count = .error .fuel ∧ ∀ i < tries, ¬ Generic cones (tried cones cost draws current i)) := by
  intro tries
  induction tries with
  | zero => intro draws current count; exact Or.inr (Or.inr ⟨rfl, fun i hi => absurd hi (Nat.not_lt_zero i)⟩)
  | succ tries ih =>
    intro draws current count
    by_cases hg : Generic cones current
    · obtain ⟨h, e1⟩ := hbuild current hg
      refine Or.inl ⟨0, h, Nat.succ_pos _, ?_, e1, hg, fun j hj => absurd hj (Nat.not_lt_zero j), fun _ => rfl⟩
      rw [prepare, e1]
      rfl
    · have e1 := buildHeap_zero current cones .empty (c78_empty ikey).1 hone hrays hg
      cases hs : single with
      | true =>
        refine Or.inr (Or.inl ⟨?_, rfl, hg⟩)
        rw [prepare, e1]
        rfl
      | false =>
        have e2 : prepare cones cost false (tries + 1) draws current count =
            prepare cones cost false tries (fun i => draws (i + 1)) (perturb cones cost (draws 0)) (count + 1) := by
          rw [prepare, e1]
          rfl
        have e3 : ∀ i, tried cones cost (fun i => draws (i + 1)) (perturb cones cost (draws 0)) i = tried cones cost draws current (i + 1) := by
          intro i
          cases i <;> rfl
        rw [hs] at ih
        rw [e2]
        rcases ih (fun i => draws (i + 1)) (perturb cones cost (draws 0)) (count + 1) with ⟨i, h, a0, a1, a2, a3, a4, -⟩ | ⟨-, a2, -⟩ | ⟨a1, a2⟩
        · refine Or.inl ⟨i + 1, h, by omega, ?_, ?_, ?_, ?_, fun hc => by cases hc⟩
          · rw [a1, Nat.add_assoc, Nat.add_comm 1 i]
          · rw [← e3]; exact a2
          · rw [← e3]; exact a3
          · intro j hj
            cases j with
            | zero => exact hg
            | succ j => rw [← e3]; exact a4 j (by omega)
        · cases a2
        · refine Or.inr (Or.inr ⟨a1, fun i hi => ?_⟩)
          cases i with
          | zero => exact hg
          | succ i => rw [← e3]; exact a2 i (by omega)

/-! ## `SolveIP` -/

/-- The cost with which the run works: the first one that is orthogonal to no ray, after `i` perturbations. -/
def Used (cones : List (OffCone n)) (cost : Vec n) (draws : ℕ → List (ℕ × ℕ)) (i : ℕ) (cost' : Vec n) : Prop :=
  cost' = tried cones cost draws cost i ∧ Generic cones cost' ∧ ∀ j < i, ¬ Generic cones (tried cones cost draws cost j)

/-- **Every run of `SolveIP`.** -/
theorem solveIP_spec {cones : List (OffCone n)} {A : Set (Vec n)} (hrep : Represents cones A) (hne : cones ≠ []) (H : Hashing)
    (matrix : List (ℤ × Vec n)) (single : Bool) (hfeas : ∀ z, feasible matrix z = true → z ∈ A)
    (hexact : single = false → ∀ z ∈ A, feasible matrix z = true) (cost : Vec n) (tries : ℕ) (draws : ℕ → List (ℕ × ℕ))
    (hdesc : ∀ cost', Generic cones cost' → (single = true → cost' = cost) → Descending cost' (A.indicator (1 : Vec n → ℚ))) (innerFuel fuel : ℕ) :
    (∃ a i cost', solveIP H cones matrix cost single tries draws innerFuel fuel = .ok (a, i) ∧ Used cones cost draws i cost' ∧ Solves cost' A matrix a) ∨
    (∃ i cost', solveIP H cones matrix cost single tries draws innerFuel fuel = .error .hang ∧ Used cones cost draws i cost' ∧ TooSmall H cones cost' matrix) ∨
    (solveIP H cones matrix cost single tries draws innerFuel fuel = .error .exit1 ∧ single = true ∧ ¬ Generic cones cost) ∨
    solveIP H cones matrix cost single tries draws innerFuel fuel = .error .fuel := by
  have hbuild0 : ∀ cost', Generic cones cost' → (single = true → cost' = cost) → ∃ h, buildHeap cost' cones .empty = .ok (some h) := by
    intro c hg hs
    obtain ⟨fs, -, -, h, B, e, -⟩ := start hrep hg (hdesc c hg hs) matrix single hfeas hexact
    exact ⟨h, e⟩
  have hprep : (∃ i h, i < tries ∧ prepare cones cost single tries draws cost 0 = .ok (h, 0 + i) ∧ buildHeap (tried cones cost draws cost i) cones .empty = .ok (some h) ∧
      Generic cones (tried cones cost draws cost i) ∧ (∀ j < i, ¬ Generic cones (tried cones cost draws cost j)) ∧ (single = true → i = 0)) ∨
    (prepare cones cost single tries draws cost 0 = .error .exit1 ∧ single = true ∧ ¬ Generic cones cost) ∨
    (prepare cones cost single tries draws cost 0 = .error .fuel ∧ ∀ i < tries, ¬ Generic cones (tried cones cost draws cost i)) := by
    cases hs : single with
    | false =>
      have := prepare_spec cones hrep.one hrep.rays cost single (fun c hg => hbuild0 c hg fun hc => by rw [hs] at hc; cases hc) tries draws cost 0
      rwa [hs] at this
    | true =>
      cases tries with
      | zero => exact Or.inr (Or.inr ⟨rfl, fun i hi => absurd hi (Nat.not_lt_zero i)⟩)
      | succ tries =>
        by_cases hg : Generic cones cost
        · obtain ⟨h, e1⟩ := hbuild0 cost hg fun _ => rfl
          refine Or.inl ⟨0, h, Nat.succ_pos _, ?_, e1, hg, fun j hj => absurd hj (Nat.not_lt_zero j), fun _ => rfl⟩
          rw [prepare, e1]
        · have e1 := buildHeap_zero cost cones .empty (c78_empty ikey).1 hrep.one hrep.rays hg
          refine Or.inr (Or.inl ⟨?_, rfl, hg⟩)
          rw [prepare, e1]
          rfl
  unfold solveIP
  rcases hprep with ⟨i, h, -, a1, a2, a3, a4, a5⟩ | ⟨a1, a2, a3⟩ | ⟨a1, -⟩
  · rw [a1]
    dsimp only
    rw [Nat.zero_add]
    have hcost : single = true → tried cones cost draws cost i = cost := fun hs => by rw [a5 hs]; rfl
    obtain ⟨fs, hfs, hset, h', B, e, hst⟩ := start hrep a3 (hdesc _ a3 hcost) matrix single hfeas hexact
    rw [a2] at e
    cases e
    rcases mainLoop_spec hset (by simpa using hne) H innerFuel fuel B h hst with ⟨a, e1, e2⟩ | ⟨e1, e2⟩ | e1
    · rw [e1]
      exact Or.inl ⟨a, i, _, rfl, ⟨rfl, a3, a4⟩, e2⟩
    · rw [e1]
      exact Or.inr (Or.inl ⟨i, _, rfl, ⟨rfl, a3, a4⟩, e2.tooSmall hfs⟩)
    · rw [e1]
      exact Or.inr (Or.inr (Or.inr rfl))
  · rw [a1]
    exact Or.inr (Or.inr (Or.inl ⟨rfl, a2, a3⟩))
  · rw [a1]
    exact Or.inr (Or.inr (Or.inr rfl))

/-- **The run ends** as soon as a generic cost has been found and if there is a feasible point. -/
theorem solveIP_ends {cones : List (OffCone n)} {A : Set (Vec n)} (hrep : Represents cones A) (hne : cones ≠ []) (H : Hashing)
    (matrix : List (ℤ × Vec n)) (single : Bool) (hfeas : ∀ z, feasible matrix z = true → z ∈ A)
    (hexact : single = false → ∀ z ∈ A, feasible matrix z = true) (cost : Vec n) (draws : ℕ → List (ℕ × ℕ))
    (hdesc : ∀ cost', Generic cones cost' → (single = true → cost' = cost) → Descending cost' (A.indicator (1 : Vec n → ℚ)))
    (x : Vec n) (hx : feasible matrix x = true) (i : ℕ) (cost' : Vec n) (hu : Used cones cost draws i cost') (hi : single = true → i = 0) :
    ∃ N F, ∀ tries innerFuel fuel, i < tries → N ≤ innerFuel → F ≤ fuel →
      (∃ a, solveIP H cones matrix cost single tries draws innerFuel fuel = .ok (a, i) ∧ Solves cost' A matrix a) ∨
      (solveIP H cones matrix cost single tries draws innerFuel fuel = .error .hang ∧ TooSmall H cones cost' matrix) := by
  obtain ⟨rfl, hg, hbefore⟩ := hu
  have hcost : single = true → tried cones cost draws cost i = cost := fun hs => by rw [hi hs]; rfl
  obtain ⟨fs, hfs, hset, h, B, e, hst⟩ := start hrep hg (hdesc _ hg hcost) matrix single hfeas hexact
  have hprep : ∀ (i : ℕ) (draws : ℕ → List (ℕ × ℕ)) (current : Vec n) (count tries : ℕ), i < tries → (single = true → i = 0) →
      buildHeap (tried cones cost draws current i) cones .empty = .ok (some h) → (∀ j < i, ¬ Generic cones (tried cones cost draws current j)) →
      prepare cones cost single tries draws current count = .ok (h, count + i) := by
    intro i
    induction i with
    | zero =>
      intro draws current count tries ht _ hb _
      obtain ⟨tries, rfl⟩ : ∃ t, tries = t + 1 := ⟨tries - 1, by omega⟩
      rw [prepare, show buildHeap current cones .empty = .ok (some h) from hb]
      rfl
    | succ i ih =>
      intro draws current count tries ht hs hb hbef
      obtain ⟨tries, rfl⟩ : ∃ t, tries = t + 1 := ⟨tries - 1, by omega⟩
      have hsf : single = false := by
        cases hsing : single with
        | false => rfl
        | true => exact absurd (hs hsing) (Nat.succ_ne_zero i)
      have e1 := buildHeap_zero current cones .empty (c78_empty ikey).1 hrep.one hrep.rays (hbef 0 (Nat.succ_pos _))
      have e3 : ∀ i, tried cones cost (fun i => draws (i + 1)) (perturb cones cost (draws 0)) i = tried cones cost draws current (i + 1) := by
        intro i
        cases i <;> rfl
      rw [prepare, e1]
      dsimp only
      rw [if_neg (by rw [hsf]; exact Bool.false_ne_true), ih (fun i => draws (i + 1)) (perturb cones cost (draws 0)) (count + 1) tries (by omega)
        (fun hc => by rw [hsf] at hc; cases hc) (by rw [e3]; exact hb) (fun j hj => by rw [e3]; exact hbef (j + 1) (by omega)),
        Nat.add_assoc, Nat.add_comm 1 i]
  obtain ⟨N, F, hNF⟩ := mainLoop_ends hset (by simpa using hne) H x hx (B - inner (tried cones cost draws cost i) x).toNat B h hst le_rfl
  refine ⟨N, F, fun tries innerFuel fuel ht hN hF => ?_⟩
  unfold solveIP
  rw [hprep i draws cost 0 tries ht hi e hbefore]
  dsimp only
  rw [Nat.zero_add]
  rcases mainLoop_spec hset (by simpa using hne) H innerFuel fuel B h hst with ⟨a, e1, e2⟩ | ⟨e1, e2⟩ | e1
  · rw [e1]
    exact Or.inl ⟨a, rfl, e2⟩
  · rw [e1]
    exact Or.inr ⟨rfl, e2.tooSmall hfs⟩
  · exact absurd e1 (hNF innerFuel fuel hN hF)

theorem descending_finite {A : Set (Vec n)} (hA : A.Finite) (cost : Vec n) : Descending cost (A.indicator (1 : Vec n → ℚ)) := by
  have key : ∀ p, A.indicator (1 : Vec n → ℚ) p ≠ 0 → p ∈ A := by
    intro p hp
    by_contra h
    exact hp (Set.indicator_of_notMem h _)
  refine ⟨?_, fun t => hA.subset fun p hp => key p hp.1⟩
  obtain ⟨B, hB⟩ := (hA.image (inner cost)).bddAbove
  exact ⟨B, fun p hp => hB ⟨p, key p hp, rfl⟩⟩

end Verif.Digging
