import Verif.CddV.Edges
import Verif.CddV.Read

/-!
# The cones read from the files of cdd
-/

namespace Verif.CddV

open Verif.Barvinok Verif.Barvinok.Spec Verif.Brion Verif.Ti2 Verif.Regular

variable {n N : ℕ}

/-- **Specification.** An integer vector without common divisor. -/
def IsPrimitive (r : Vec n) : Prop := ∀ d : ℤ, (∀ k, d ∣ r k) → d ∣ 1

/-- The ray constructed from two vertices is the primitive vector in the direction of the second. -/
theorem ray_ok (v w : List (ℤ × ℤ)) (hv : Latte.RatVec.PosDen v) (hw : Latte.RatVec.PosDen w) (hlv : v.length = n) (hlw : w.length = n) (hn : 0 < n)
    (hne : (point v : Fin n → ℚ) ≠ point w) :
    ∃ r, Latte.RatVec.constructRay (Latte.RatVec.ofEntries v) (Latte.RatVec.ofEntries w) = some r ∧ IsPrimitive (fun j : Fin n => r.getD j 0) ∧
      ∃ c : ℝ, 0 < c ∧ toR (fun j : Fin n => r.getD j 0) = c • (real (point w) - real (point v)) := by
  have hmap : v.map Latte.RatVec.val ≠ w.map Latte.RatVec.val := by
    intro h
    refine hne (funext fun k => ?_)
    have hk : (k : ℕ) < v.length := by rw [hlv]; exact k.2
    have hk' : (k : ℕ) < w.length := by rw [hlw]; exact k.2
    have := congrArg (fun l => l[(k : ℕ)]?) h
    simp only [List.getElem?_map, List.getElem?_eq_getElem hk, List.getElem?_eq_getElem hk', Option.map_some, Option.some.injEq] at this
    unfold point
    rw [List.getD_eq_getElem _ _ hk, List.getD_eq_getElem _ _ hk', this]
  obtain ⟨r, hr, hp, c, hc, he⟩ := (Latte.RatVec.c07_constructRay v w hv hw (hlv.trans hlw.symm) (by
    intro h
    rw [h] at hlv
    simp at hlv
    omega)).1 hmap
  have hlen : r.length = n := by
    have := congrArg List.length he
    simp only [List.length_map, List.length_zipWith] at this
    omega
  refine ⟨r, hr, ?_, (c : ℝ), by exact_mod_cast hc, ?_⟩
  · intro d hd
    refine hp d fun x hx => ?_
    obtain ⟨k, hk, rfl⟩ := List.getElem_of_mem hx
    have : d ∣ r.getD k 0 := hd ⟨k, by omega⟩
    rwa [List.getD_eq_getElem _ _ hk] at this
  · funext k
    have hk : (k : ℕ) < r.length := by rw [hlen]; exact k.2
    have hkv : (k : ℕ) < v.length := by rw [hlv]; exact k.2
    have hkw : (k : ℕ) < w.length := by rw [hlw]; exact k.2
    have := congrArg (fun l => l[(k : ℕ)]?) he
    simp only [List.getElem?_map, List.getElem?_zipWith, List.getElem?_eq_getElem hk, List.getElem?_eq_getElem hkv, List.getElem?_eq_getElem hkw,
      Option.map_some, Option.some.injEq] at this
    simp only [toR, real, point, Pi.smul_apply, Pi.sub_apply, smul_eq_mul]
    rw [List.getD_eq_getElem _ _ hk, List.getD_eq_getElem _ _ hkv, List.getD_eq_getElem _ _ hkw]
    exact_mod_cast this

/-- What is known of the ray to vertex number `k`. -/
def RayTo (vertices : List (List (ℤ × ℤ))) (v : Fin n → ℚ) (k : ℤ) (r : Vec n) : Prop :=
  ∃ w, 1 ≤ k ∧ vertices[(k - 1).toNat]? = some w ∧ IsPrimitive r ∧ ∃ c : ℝ, 0 < c ∧ toR r = c • (real (point w) - real v)

theorem rays_ok (vertices : List (List (ℤ × ℤ))) (hv : ∀ v ∈ vertices, Latte.RatVec.PosDen v ∧ v.length = n) (hn : 0 < n) (v : List (ℤ × ℤ)) (hmem : v ∈ vertices) :
    ∀ l : List ℤ, (∀ k ∈ l, ∃ w, 1 ≤ k ∧ vertices[(k - 1).toNat]? = some w ∧ (point v : Fin n → ℚ) ≠ point w) →
      ∃ rs : List (Vec n), rays vertices v l = some rs ∧ List.Forall₂ (RayTo vertices (point v)) l rs := by
  intro l
  induction l with
  | nil => intro _; exact ⟨[], rfl, .nil⟩
  | cons k l ih =>
    intro h
    obtain ⟨rs, hrs, hf⟩ := ih fun k' hk' => h k' (List.mem_cons_of_mem _ hk')
    obtain ⟨w, hk, hw, hne⟩ := h k List.mem_cons_self
    have hwm : w ∈ vertices := List.mem_of_getElem? hw
    obtain ⟨r, hr, hp, hc⟩ := ray_ok v w (hv v hmem).1 (hv w hwm).1 (hv v hmem).2 (hv w hwm).2 hn hne
    refine ⟨(fun j : Fin n => r.getD j 0) :: rs, ?_, .cons ⟨w, hk, hw, hp, hc⟩ hf⟩
    rw [rays, if_neg (by omega), hw]
    simp only [hr, hrs, Option.map_some]

/-! ## Rays along the edges -/

theorem extreme_smul {K : Set (Fin n → ℝ)} (hcone : ∀ c : ℝ, 0 ≤ c → ∀ x ∈ K, c • x ∈ K) {e : Fin n → ℝ} {c : ℝ} (hc : 0 < c) (h : IsExtremeRay K e) :
    IsExtremeRay K (c • e) := by
  obtain ⟨h1, h2, h3⟩ := h
  refine ⟨hcone c hc.le e h1, fun h => h2 ?_, fun u hu w hw hs => ?_⟩
  · have := hcone c⁻¹ (by positivity) _ h
    rwa [smul_neg, smul_smul, inv_mul_cancel₀ hc.ne', one_smul] at this
  · obtain ⟨d, hd, hl⟩ := h3 (c⁻¹ • u) (hcone _ (by positivity) u hu) (c⁻¹ • w) (hcone _ (by positivity) w hw) (by
      rw [← smul_add, hs, smul_smul, inv_mul_cancel₀ hc.ne', one_smul])
    refine ⟨d, hd, ?_⟩
    have e1 : u - d • c • e = c • (c⁻¹ • u - d • e) := by
      rw [smul_sub, smul_smul c c⁻¹, mul_inv_cancel₀ hc.ne', one_smul, smul_comm]
    rw [e1]
    refine ⟨hcone c hc.le _ hl.1, ?_⟩
    rw [← smul_neg]
    exact hcone c hc.le _ hl.2

variable {a : Fin N → Vec n} {b : Fin N → ℚ}

/-- Two vertices in the same direction from a third one are the same. -/
theorem same_direction {v w w' : Fin n → ℚ} (hv : real v ∈ (Poly a fun i => (b i : ℝ)).extremePoints ℝ) (hw : real w ∈ (Poly a fun i => (b i : ℝ)).extremePoints ℝ)
    (hw' : real w' ∈ (Poly a fun i => (b i : ℝ)).extremePoints ℝ) (hne : v ≠ w) (hne' : v ≠ w') {c : ℝ} (hc : 0 < c)
    (h : real w - real v = c • (real w' - real v)) : w = w' := by
  have inj : ∀ x y : Fin n → ℚ, real x = real y → x = y := by
    intro x y h
    funext k
    have : (x k : ℝ) = (y k : ℝ) := congrFun h k
    exact_mod_cast this
  rcases lt_trichotomy c 1 with hlt | rfl | hgt
  · exfalso
    have : real w ∈ openSegment ℝ (real v) (real w') := by
      refine ⟨1 - c, c, by linarith, hc, by ring, ?_⟩
      have hk : real w = real v + c • (real w' - real v) := by rw [← h]; simp
      rw [hk]
      funext k
      simp
      ring
    exact hne (inj _ _ (hw.2 hv.1 hw'.1 this))
  · refine inj _ _ ?_
    rw [one_smul] at h
    simpa using h
  · exfalso
    have : real w' ∈ openSegment ℝ (real v) (real w) := by
      refine ⟨1 - c⁻¹, c⁻¹, ?_, by positivity, by ring, ?_⟩
      · rw [sub_pos]; exact inv_lt_one_of_one_lt₀ hgt
      · have hk : real w = real v + c • (real w' - real v) := by rw [← h]; simp
        rw [hk]
        funext k
        simp
        field_simp
        ring
    exact hne' (inj _ _ (hw'.2 hv.1 hw.1 this))

/-- The primitive vectors along the edges at a vertex are the extreme rays of the tangent cone, each once. -/
theorem edges_rayList (vs : List (Fin n → ℚ)) (hvs : IsVertexList a b vs) (hb : ∀ y : Fin n → ℝ, (∀ i, dot (a i) y ≤ 0) → y = 0) (v : Fin n → ℚ) (hv : v ∈ vs)
    (l : List ℤ) (hl : l.Nodup) (rs : List (Vec n)) (rel : ℤ → Vec n → (Fin n → ℚ) → Prop)
    (hf : List.Forall₂ (fun k r => ∃ w ∈ vs, rel k r w ∧ ∃ c : ℝ, 0 < c ∧ toR r = c • (real w - real v)) l rs)
    (hedge : ∀ k r w, k ∈ l → rel k r w → Edge (Poly a fun i => (b i : ℝ)) v w)
    (hinj : ∀ k k' r r' w, rel k r w → rel k' r' w → k = k')
    (hall : ∀ w ∈ vs, Edge (Poly a fun i => (b i : ℝ)) v w → ∃ k ∈ l, ∀ r w', rel k r w' → w' = w) :
    IsRayList (tangent a b v) rs [] := by
  have hver : ∀ w ∈ vs, real w ∈ (Poly a fun i => (b i : ℝ)).extremePoints ℝ := fun w hw => (hvs.mem _).1 ⟨w, hw, rfl⟩
  have hlen := hf.length_eq
  have hget := (List.forall₂_iff_get.1 hf).2
  have hpt := hver v hv
  refine ⟨?_, ?_, ?_, ?_, ?_⟩
  · intro r hr
    obtain ⟨i, hi, rfl⟩ := List.getElem_of_mem hr
    obtain ⟨w, hw, hto, c, hc, e⟩ := hget i (by omega) hi
    have e' : toR rs[i] = c • (real w - real v) := e
    rw [e']
    exact extreme_smul (fun c hc x hx => smul_mem_tangent hc hx) hc (edge_extreme hpt (hedge _ _ w (List.get_mem l ⟨i, by omega⟩) hto))
  · intro e he
    obtain ⟨x, hx, hxv, hseg, t, ht, hxe⟩ := extreme_edge hpt hb he
    obtain ⟨w, hw, rfl⟩ := (hvs.mem x).2 hx
    have hedge' : Edge (Poly a fun i => (b i : ℝ)) v w := ⟨fun h => hxv (by rw [h]; rfl), hseg⟩
    obtain ⟨k, hk, hkw⟩ := hall w hw hedge'
    obtain ⟨i, hi, rfl⟩ := List.getElem_of_mem hk
    obtain ⟨w', -, hto, c, hc, e'⟩ := hget i hi (by omega)
    obtain rfl : w' = w := hkw _ _ hto
    refine ⟨rs.get ⟨i, by omega⟩, List.get_mem _ _, (c * t)⁻¹, by positivity, ?_⟩
    rw [e']
    have : real w' - real v = t • e := hxe
    rw [this, smul_smul, smul_smul, mul_assoc, inv_mul_cancel₀ (mul_pos hc ht).ne', one_smul, sub_self]
    exact zero_lin_tangent v
  · rw [List.pairwise_iff_getElem]
    intro i j hi hj hij c hc hlin
    obtain ⟨w, hw, hto, d, hd, e⟩ := hget i (by omega) hi
    obtain ⟨w', hw', hto', d', hd', e'⟩ := hget j (by omega) hj
    have h0 := lin_tangent hpt hlin
    have e1 : toR rs[i] = d • (real w - real v) := e
    have e2 : toR rs[j] = d' • (real w' - real v) := e'
    have h1 : real w - real v = (d⁻¹ * (c * d')) • (real w' - real v) := by
      have h2 : toR rs[i] = c • toR rs[j] := sub_eq_zero.1 h0
      rw [e1, e2] at h2
      rw [← smul_smul, ← smul_smul, ← h2, smul_smul, inv_mul_cancel₀ hd.ne', one_smul]
    have hE := hedge _ _ w (List.get_mem l ⟨i, by omega⟩) hto
    have hE' := hedge _ _ w' (List.get_mem l ⟨j, by omega⟩) hto'
    obtain rfl := same_direction hpt (hver w hw) (hver w' hw') hE.1 hE'.1 (by positivity) h1
    have := hinj _ _ _ _ _ hto hto'
    have hn := (List.nodup_iff_injective_get.1 hl) this
    simp only [Fin.mk.injEq] at hn
    omega
  · intro x
    have : IsEmpty (Fin ([] : List (Vec n)).length) := inferInstanceAs (IsEmpty (Fin 0))
    rw [Set.range_eq_empty, Submodule.span_empty, Submodule.mem_bot]
    exact ⟨fun h => lin_tangent hpt h, fun h => by rw [h]; exact zero_lin_tangent v⟩
  · have : IsEmpty (Fin ([] : List (Vec n)).length) := inferInstanceAs (IsEmpty (Fin 0))
    exact linearIndependent_empty_type

/-- The extreme rays generate the tangent cone. -/
theorem generated_tangent (ineqs : List (ℤ × Vec n)) (v : Fin n → ℚ) (rs : List (Vec n)) (h : IsRayList (tangent (normals ineqs) (sides ineqs) v) rs []) :
    generated rs = tangent (normals ineqs) (sides ineqs) v := by
  have hset : tangent (normals ineqs) (sides ineqs) v = Polar (computeTight ineqs v []) := Set.ext fun y => ((c69_tight_tangent ineqs v).1 y).symm
  rw [hset] at h ⊢
  rw [polar_generated h]
  ext y
  constructor
  · intro hy; exact ⟨y, hy, 0, Submodule.zero_mem _, by rw [add_zero]⟩
  · rintro ⟨u, hu, w, hw, rfl⟩
    rw [range_get] at hw
    have : w = 0 := by simpa using hw
    rw [this, add_zero]
    exact hu

end Verif.CddV
