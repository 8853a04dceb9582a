import Verif.Approx.Model

/-!
# C85: the bounds of one cone
-/

namespace Verif.Approx

open Verif.Barvinok Verif.Barvinok.Spec Verif.ExpSubst

variable {n m : ℕ}

/-! ### The points of a parallelepiped of any size -/

theorem piped_points {C : Piped.Input m} (hC : Piped.Good C) :
    ∃ pts : List (Vec (m + 1)), pts.Nodup ∧ (pts.length : ℤ) = |C.determinant| ∧ ∀ p, p ∈ pts ↔ Piped.InPiped C.rays C.vertex p := by
  obtain ⟨b, -, hpos, hprod, hcos⟩ := Piped.basis_spec Smith.stdX hC
  let B : Finset (Vec (m + 1)) := Fintype.piFinset fun j => Finset.Ico (0 : ℤ) (b.1 j)
  have hB : ∀ x, x ∈ B ↔ ∀ j, 0 ≤ x j ∧ x j < b.1 j := fun x => by
    simp only [B, Fintype.mem_piFinset, Finset.mem_Ico]
  have hcard : (B.card : ℤ) = |C.determinant| := by
    rw [← hprod, Fintype.card_piFinset]
    push_cast
    refine Finset.prod_congr rfl fun j _ => ?_
    rw [Int.card_Ico]
    have := hpos j
    omega
  refine ⟨B.toList.map (Piped.generatePoint C (Piped.mkGen C b)), ?_, by rw [List.length_map, Finset.length_toList, hcard], ?_⟩
  · refine List.Nodup.map_on (fun x hx y hy h => ?_) (Finset.nodup_toList B)
    rw [Finset.mem_toList, hB] at hx hy
    obtain ⟨-, -, k, hk⟩ := Piped.generatePoint_spec hC b x
    obtain ⟨-, -, k', hk'⟩ := Piped.generatePoint_spec hC b y
    exact (hcos (Piped.generatePoint C (Piped.mkGen C b) x)).unique ⟨hx, k, hk⟩ ⟨hy, k', h ▸ hk'⟩
  · intro p
    rw [Piped.inPiped_iff hC b p, List.mem_map]
    constructor
    · rintro ⟨x, -, rfl⟩
      exact (Piped.generatePoint_spec hC b x).2.1
    · intro hp
      obtain ⟨x, ⟨hx, k, hk⟩, -⟩ := hcos p
      refine ⟨x, by rw [Finset.mem_toList, hB]; exact hx, ?_⟩
      obtain ⟨-, hbox, k', hk'⟩ := Piped.generatePoint_spec hC b x
      apply Piped.inBox_unique hC _ _ _ (k' - k) hbox hp
      rw [hk', hk, Matrix.mulVec_sub]
      abel

theorem good_of_wf {C : Cone (m + 1)} (hC : Wf C) : ∃ F, C.facets = some F ∧ Piped.Good (pipedInput C F) := by
  obtain ⟨F, hF, hdual, -⟩ := hC.facets
  exact ⟨F, hF, hC.det_eq, hC.det_ne, hdual, hC.div_pos, hC.div_dvd, vertexScale_ne _⟩

theorem cone_points {C : Cone (m + 1)} (hC : Wf C) :
    ∃ pts : List (Vec (m + 1)), pts.Nodup ∧ (pts.length : ℤ) = |C.determinant| ∧ (∀ p, p ∈ pts ↔ Piped.InPiped C.rays C.vertex p) ∧
      act (den C.rays) (coneInd C.rays C.vertex) = emb (gf pts) := by
  obtain ⟨F, hF, hG⟩ := good_of_wf hC
  obtain ⟨pts, h1, h2, h3⟩ := piped_points hG
  have h4 : ∀ p, p ∈ pts ↔ Piped.InPiped C.rays C.vertex p := fun p => by rw [h3 p, pipedInput_vertex]; rfl
  exact ⟨pts, h1, h2, h4, act_cone C F hG pts h1 h4⟩

/-- The lattice points of the half-open parallelepiped of a cone, in some order. -/
noncomputable def pointsOf (C : Cone (m + 1)) : List (Vec (m + 1)) :=
  haveI := Classical.propDecidable
  if h : Wf C then (cone_points h).choose else []

theorem pointsOf_spec {C : Cone (m + 1)} (hC : Wf C) :
    (pointsOf C).Nodup ∧ ((pointsOf C).length : ℤ) = |C.determinant| ∧ (∀ p, p ∈ pointsOf C ↔ Piped.InPiped C.rays C.vertex p) ∧
      act (den C.rays) (coneInd C.rays C.vertex) = emb (gf (pointsOf C)) := by
  unfold pointsOf
  rw [dif_pos hC]
  exact (cone_points hC).choose_spec

/-- The exact contribution of a cone to the number of lattice points, for a vector that is not orthogonal to its rays. -/
noncomputable def value (lam : Vec (m + 1)) (C : Cone (m + 1)) : ℚ :=
  (C.coefficient : ℚ) * PowerSeries.coeff (m + 1) (phi lam (gf (pointsOf C)) * coneSeries lam C.rays)

theorem weights_value (lam : Vec (m + 1)) (C : Cone (m + 1)) (w : List ℚ) (P : ℤ)
    (hw : residueWeights lam (List.ofFn fun i => C.rays i) = .ok (w, P)) :
    (∀ i, ip lam (C.rays i) ≠ 0) ∧ w.length = m + 2 ∧
      value lam C = (C.coefficient : ℚ) * ((List.range (m + 2)).map fun k => ((((pointsOf C).map fun p => ip lam p ^ k).sum : ℤ) : ℚ) * w.getD k 0).sum := by
  have hgen : ∀ i, ip lam (C.rays i) ≠ 0 := by
    intro i h0
    rw [residueWeights_notGeneric lam C.rays i h0] at hw
    cases hw
  obtain ⟨w', P', hw', hl, hk⟩ := residueWeights_ok lam C.rays hgen
  rw [hw'] at hw
  cases hw
  refine ⟨hgen, hl, ?_⟩
  unfold value
  rw [← weighted_sum lam C.rays w hl hk (pointsOf C), hl]
  congr 2
  refine List.map_congr_left fun k hk => ?_
  rw [List.mem_range] at hk
  rw [sumsOfPowers_getD _ _ _ (by omega), List.map_map]
  rfl

/-! ### Bounds -/

theorem vertexBounds_spec (lam : Vec n) (v : Fin n → ℚ) :
    ((vertexBounds lam v).1 : ℚ) ≤ ∑ k, (lam k : ℚ) * v k ∧ ∑ k, (lam k : ℚ) * v k ≤ ((vertexBounds lam v).2 : ℚ) := by
  have hd : 0 < vertexScale v := lt_of_le_of_ne (by unfold vertexScale; positivity) (vertexScale_ne v).symm
  have hdq : (0 : ℚ) < vertexScale v := by exact_mod_cast hd
  have hs : ∑ k, (lam k : ℚ) * v k = (ExpSubst.inner lam (vertexScaled v) : ℚ) / vertexScale v := by
    unfold ExpSubst.inner
    push_cast
    rw [Finset.sum_div]
    refine Finset.sum_congr rfl fun k _ => ?_
    rw [mul_div_assoc, vertexScaled_div]
  rw [hs, le_div_iff₀ hdq, div_le_iff₀ hdq]
  unfold vertexBounds
  have h1 := Int.emod_add_mul_ediv (ExpSubst.inner lam (vertexScaled v)) (vertexScale v)
  have h2 := Int.emod_nonneg (ExpSubst.inner lam (vertexScaled v)) hd.ne'
  have h3 := Int.emod_lt_of_pos (ExpSubst.inner lam (vertexScaled v)) hd
  simp only
  split_ifs with h0
  · constructor
    · have : ExpSubst.inner lam (vertexScaled v) / vertexScale v * vertexScale v ≤ ExpSubst.inner lam (vertexScaled v) := by nlinarith
      exact_mod_cast this
    · have : ExpSubst.inner lam (vertexScaled v) ≤ ExpSubst.inner lam (vertexScaled v) / vertexScale v * vertexScale v := by nlinarith
      exact_mod_cast this
  · constructor
    · have : ExpSubst.inner lam (vertexScaled v) / vertexScale v * vertexScale v ≤ ExpSubst.inner lam (vertexScaled v) := by nlinarith
      exact_mod_cast this
    · have : ExpSubst.inner lam (vertexScaled v) ≤ (ExpSubst.inner lam (vertexScaled v) / vertexScale v + 1) * vertexScale v := by nlinarith
      exact_mod_cast this

theorem pipedBounds_spec (l : List ℤ) (b : ℤ × ℤ) (x : ℚ) (h1 : (b.1 : ℚ) ≤ x) (h2 : x ≤ b.2) (a : List ℚ)
    (ha : a.length = l.length) (h01 : ∀ y ∈ a, 0 ≤ y ∧ y ≤ 1) :
    ((pipedBounds l b).1 : ℚ) ≤ x + (List.zipWith (fun (y : ℚ) (p : ℤ) => y * (p : ℚ)) a l).sum ∧
      x + (List.zipWith (fun (y : ℚ) (p : ℤ) => y * (p : ℚ)) a l).sum ≤ ((pipedBounds l b).2 : ℚ) := by
  induction l generalizing b x a with
  | nil =>
    cases a with
    | nil => simpa [pipedBounds] using ⟨h1, h2⟩
    | cons y a => simp at ha
  | cons p l ih =>
    cases a with
    | nil => simp at ha
    | cons y a =>
      simp only [List.length_cons, Nat.add_right_cancel_iff] at ha
      obtain ⟨hy0, hy1⟩ := h01 y List.mem_cons_self
      have h01' : ∀ y ∈ a, 0 ≤ y ∧ y ≤ 1 := fun z hz => h01 z (List.mem_cons_of_mem _ hz)
      rw [List.zipWith_cons_cons, List.sum_cons, ← add_assoc]
      unfold pipedBounds
      split_ifs with g1 g2
      · have g : (p : ℚ) < 0 := by exact_mod_cast g1
        refine ih (b.1 + p, b.2) (x + y * p) ?_ ?_ a ha h01'
        · push_cast; nlinarith
        · show x + y * p ≤ (b.2 : ℚ); nlinarith
      · have g : (0 : ℚ) < p := by exact_mod_cast g2
        refine ih (b.1, b.2 + p) (x + y * p) ?_ ?_ a ha h01'
        · show (b.1 : ℚ) ≤ x + y * p; nlinarith
        · push_cast; nlinarith
      · have g : p = 0 := by omega
        subst g
        exact ih b (x + y * (0 : ℤ)) (by push_cast; linarith) (by push_cast; linarith) a ha h01'

theorem powerBound_spec (lower upper q : ℤ) (h1 : lower ≤ q) (h2 : q ≤ upper) (k : ℕ) :
    (powerBound lower upper k (lower ^ k) (upper ^ k)).1 ≤ q ^ k ∧ q ^ k ≤ (powerBound lower upper k (lower ^ k) (upper ^ k)).2 := by
  unfold powerBound
  split_ifs with g1 g2 g3 g4
  · have he : Even k := Nat.even_iff.2 g1
    constructor
    · show upper ^ k ≤ q ^ k
      rw [← he.neg_pow upper, ← he.neg_pow q]
      exact pow_le_pow_left₀ (by omega) (by omega) k
    · show q ^ k ≤ lower ^ k
      rw [← he.neg_pow lower, ← he.neg_pow q]
      exact pow_le_pow_left₀ (by omega) (by omega) k
  · exact ⟨pow_le_pow_left₀ (by omega) h1 k, pow_le_pow_left₀ (by omega) h2 k⟩
  all_goals try
    have he : Even k := Nat.even_iff.2 g1
    refine ⟨he.pow_nonneg q, ?_⟩
    have hl : q ≤ 0 → q ^ k ≤ lower ^ k := fun hq => by
      rw [← he.neg_pow lower, ← he.neg_pow q]
      exact pow_le_pow_left₀ (by omega) (by omega) k
    have hu : 0 ≤ q → q ^ k ≤ upper ^ k := fun hq => pow_le_pow_left₀ hq h2 k
    show q ^ k ≤ _
    rcases le_total 0 q with hq | hq
    · have := hu hq
      first | exact this | (simp only; omega)
    · have := hl hq
      first | exact this | (simp only; omega)
  · have ho : Odd k := Nat.odd_iff.2 (by omega)
    exact ⟨ho.strictMono_pow.monotone h1, ho.strictMono_pow.monotone h2⟩

theorem powerBounds_length (lower upper : ℤ) (t k : ℕ) (a b : ℤ) : (powerBounds lower upper t k a b).length = t := by
  induction t generalizing k a b with
  | zero => rfl
  | succ t ih => simp [powerBounds, ih]

theorem powerBounds_get (lower upper : ℤ) (t k j : ℕ) (hj : j < t) :
    (powerBounds lower upper t k (lower ^ k) (upper ^ k))[j]? = some (powerBound lower upper (k + j) (lower ^ (k + j)) (upper ^ (k + j))) := by
  induction t generalizing k j with
  | zero => omega
  | succ t ih =>
    unfold powerBounds
    cases j with
    | zero => simp
    | succ j =>
      rw [List.getElem?_cons_succ, ← pow_succ, ← pow_succ, ih (k + 1) j (by omega)]
      congr 2 <;> ring_nf

/-- The two sums enclose the weighted sum of anything between the bounds. -/
theorem contributions_spec (c N : ℤ) (L : List ((ℤ × ℤ) × ℚ)) (t : ℚ × ℚ) (x : ℚ) (h1 : t.1 ≤ x) (h2 : x ≤ t.2) (S : List ℚ)
    (hS : S.length = L.length) (hb : ∀ p ∈ S.zip L, ((p.2.1.1 * N : ℤ) : ℚ) ≤ p.1 ∧ p.1 ≤ ((p.2.1.2 * N : ℤ) : ℚ)) :
    (contributions c N L t).1 ≤ x + (c : ℚ) * (List.zipWith (fun (s : ℚ) (p : (ℤ × ℤ) × ℚ) => s * p.2) S L).sum ∧
      x + (c : ℚ) * (List.zipWith (fun (s : ℚ) (p : (ℤ × ℤ) × ℚ) => s * p.2) S L).sum ≤ (contributions c N L t).2 := by
  induction L generalizing t x S with
  | nil =>
    cases S with
    | nil => simpa [contributions] using ⟨h1, h2⟩
    | cons s S => simp at hS
  | cons q L ih =>
    obtain ⟨⟨l, u⟩, w⟩ := q
    cases S with
    | nil => simp at hS
    | cons s S =>
      simp only [List.length_cons, Nat.add_right_cancel_iff] at hS
      have hs := hb (s, ((l, u), w)) (by simp)
      have hb' : ∀ p ∈ S.zip L, ((p.2.1.1 * N : ℤ) : ℚ) ≤ p.1 ∧ p.1 ≤ ((p.2.1.2 * N : ℤ) : ℚ) := fun p hp => hb p (by
        rw [List.zip_cons_cons]; exact List.mem_cons_of_mem _ hp)
      rw [List.zipWith_cons_cons, List.sum_cons, mul_add, ← add_assoc]
      simp only at hs
      push_cast at hs
      have key : ∀ z : ℚ, (l : ℚ) * N ≤ s → s ≤ (u : ℚ) * N →
          (z * (l * N) ≤ z * s ∧ z * s ≤ z * (u * N)) ∨ (z * (u * N) ≤ z * s ∧ z * s ≤ z * (l * N)) := by
        intro z g1 g2
        rcases le_total 0 z with hz | hz
        · exact Or.inl ⟨mul_le_mul_of_nonneg_left g1 hz, mul_le_mul_of_nonneg_left g2 hz⟩
        · exact Or.inr ⟨mul_le_mul_of_nonpos_left g2 hz, mul_le_mul_of_nonpos_left g1 hz⟩
      have k1 := key (c * w) hs.1 hs.2
      have e1 : ((c * l * N : ℤ) : ℚ) * w = c * w * (l * N) := by push_cast; ring
      have e2 : ((c * u * N : ℤ) : ℚ) * w = c * w * (u * N) := by push_cast; ring
      have e3 : (c : ℚ) * (s * w) = c * w * s := by ring
      unfold contributions
      simp only
      rw [e1, e2]
      show (if _ then _ else _ : ℚ × ℚ).1 ≤ x + (c : ℚ) * (s * w) + _ ∧ x + (c : ℚ) * (s * w) + _ ≤ (if _ then _ else _ : ℚ × ℚ).2
      rw [e3]
      split_ifs with g
      · refine ih _ _ ?_ ?_ S hS hb'
        · rcases k1 with k | k <;> simp only <;> linarith [k.1, k.2]
        · rcases k1 with k | k <;> simp only <;> linarith [k.1, k.2]
      · refine ih _ _ ?_ ?_ S hS hb'
        · rcases k1 with k | k <;> simp only <;> linarith [k.1, k.2]
        · rcases k1 with k | k <;> simp only <;> linarith [k.1, k.2]

/-- The scalar products of the points of the parallelepiped are within the bounds. -/
theorem point_bounds (lam : Vec n) (A : Mat n) (v : Fin n → ℚ) (p : Vec n) (hp : Piped.InPiped A v p) :
    (pipedBounds ((List.ofFn fun i => A i).map (ExpSubst.inner lam)) (vertexBounds lam v)).1 ≤ ip lam p ∧
      ip lam p ≤ (pipedBounds ((List.ofFn fun i => A i).map (ExpSubst.inner lam)) (vertexBounds lam v)).2 := by
  obtain ⟨a, ha, hpk⟩ := hp
  obtain ⟨h1, h2⟩ := vertexBounds_spec lam v
  have h := pipedBounds_spec ((List.ofFn fun i => A i).map (ExpSubst.inner lam)) (vertexBounds lam v) _ h1 h2 (List.ofFn a) (by simp)
    (fun y hy => by obtain ⟨i, rfl⟩ := List.mem_ofFn.1 hy; exact ⟨(ha i).1, (ha i).2.le⟩)
  have e : (∑ k, (lam k : ℚ) * v k) + (List.zipWith (fun (y : ℚ) (p : ℤ) => y * (p : ℚ)) (List.ofFn a)
      ((List.ofFn fun i => A i).map (ExpSubst.inner lam))).sum = (ip lam p : ℚ) := by
    have e1 : List.zipWith (fun (y : ℚ) (p : ℤ) => y * (p : ℚ)) (List.ofFn a) ((List.ofFn fun i => A i).map (ExpSubst.inner lam)) =
        List.ofFn fun i => a i * (ExpSubst.inner lam (A i) : ℚ) := by
      apply List.ext_getElem
      · simp
      · intro i h1 h2; simp
    rw [e1, List.sum_ofFn]
    unfold ip ExpSubst.inner
    push_cast
    have e2 : ∀ k, (lam k : ℚ) * (p k : ℚ) = lam k * v k + ∑ i, a i * (lam k * (A i k : ℚ)) := fun k => by
      rw [hpk k, mul_add, Finset.mul_sum]
      congr 1
      exact Finset.sum_congr rfl fun i _ => by ring
    rw [Finset.sum_congr rfl fun k _ => e2 k, Finset.sum_add_distrib, Finset.sum_comm]
    congr 1
    exact Finset.sum_congr rfl fun i _ => by rw [Finset.mul_sum]
  rw [e] at h
  exact ⟨by exact_mod_cast h.1, by exact_mod_cast h.2⟩

/-- **C85, one cone.** The bounds stored for a cone enclose its exact contribution. -/
theorem approxData_spec (lam : Vec (m + 1)) (C : Cone (m + 1)) (hC : Wf C) (d : Data (m + 1)) (h : approxData lam C = .ok d) :
    d.cone = C ∧ (∀ i, ip lam (C.rays i) ≠ 0) ∧ d.lower ≤ value lam C ∧ value lam C ≤ d.upper := by
  unfold approxData at h
  cases hw : residueWeights lam (List.ofFn fun i => C.rays i) with
  | error e => rw [hw] at h; cases h
  | ok r =>
    obtain ⟨w, P⟩ := r
    rw [hw] at h
    simp only at h
    cases h
    obtain ⟨hgen, hl, hv⟩ := weights_value lam C w P hw
    refine ⟨rfl, hgen, ?_⟩
    obtain ⟨-, hlen, hpts, -⟩ := pointsOf_spec hC
    set bd := pipedBounds ((List.ofFn fun i => C.rays i).map (ExpSubst.inner lam)) (vertexBounds lam C.vertex) with hbd
    have hlz : ((powerBounds bd.1 bd.2 (m + 1 + 1) 0 1 1).zip w).length = m + 2 := by
      rw [List.length_zip, powerBounds_length, hl]; simp
    have hget : ∀ j, j < m + 2 → (powerBounds bd.1 bd.2 (m + 1 + 1) 0 1 1)[j]? = some (powerBound bd.1 bd.2 j (bd.1 ^ j) (bd.2 ^ j)) := by
      intro j hj
      have := powerBounds_get bd.1 bd.2 (m + 1 + 1) 0 j (by omega)
      simpa using this
    have hcs := contributions_spec C.coefficient |C.determinant| ((powerBounds bd.1 bd.2 (m + 1 + 1) 0 1 1).zip w) (0, 0) 0 le_rfl le_rfl
      ((List.range (m + 2)).map fun k => ((((pointsOf C).map fun p => ip lam p ^ k).sum : ℤ) : ℚ)) (by rw [hlz]; simp) (by
        intro p hp
        obtain ⟨j, hj, rfl⟩ := List.mem_iff_getElem.1 hp
        have hj' : j < m + 2 := by
          simp only [List.length_zip, List.length_map, List.length_range] at hj
          omega
        have e1 : (powerBounds bd.1 bd.2 (m + 1 + 1) 0 1 1)[j]'(by rw [powerBounds_length]; omega) = powerBound bd.1 bd.2 j (bd.1 ^ j) (bd.2 ^ j) :=
          (List.getElem_eq_iff _).2 (hget j hj')
        simp only [List.getElem_zip, List.getElem_map, List.getElem_range, e1]
        have hb : ∀ x ∈ (pointsOf C).map (fun p => ip lam p ^ j), (powerBound bd.1 bd.2 j (bd.1 ^ j) (bd.2 ^ j)).1 ≤ x ∧
            x ≤ (powerBound bd.1 bd.2 j (bd.1 ^ j) (bd.2 ^ j)).2 := by
          intro x hx
          obtain ⟨p, hp, rfl⟩ := List.mem_map.1 hx
          obtain ⟨b1, b2⟩ := point_bounds lam C.rays C.vertex p ((hpts p).1 hp)
          exact powerBound_spec _ _ _ b1 b2 j
        have s1 := List.card_nsmul_le_sum _ _ fun x hx => (hb x hx).1
        have s2 := List.sum_le_card_nsmul _ _ fun x hx => (hb x hx).2
        rw [List.length_map, nsmul_eq_mul] at s1 s2
        rw [← hlen]
        constructor
        · have : (powerBound bd.1 bd.2 j (bd.1 ^ j) (bd.2 ^ j)).1 * ((pointsOf C).length : ℤ) ≤ ((pointsOf C).map fun p => ip lam p ^ j).sum := by
            rw [mul_comm]; exact s1
          exact_mod_cast this
        · have : ((pointsOf C).map fun p => ip lam p ^ j).sum ≤ (powerBound bd.1 bd.2 j (bd.1 ^ j) (bd.2 ^ j)).2 * ((pointsOf C).length : ℤ) := by
            rw [mul_comm]; exact s2
          exact_mod_cast this)
    have hzw : List.zipWith (fun (s : ℚ) (p : (ℤ × ℤ) × ℚ) => s * p.2)
        ((List.range (m + 2)).map fun k => ((((pointsOf C).map fun p => ip lam p ^ k).sum : ℤ) : ℚ))
        ((powerBounds bd.1 bd.2 (m + 1 + 1) 0 1 1).zip w) =
        (List.range (m + 2)).map fun k => ((((pointsOf C).map fun p => ip lam p ^ k).sum : ℤ) : ℚ) * w.getD k 0 := by
      apply List.ext_getElem
      · rw [List.length_zipWith, hlz]; simp
      · intro j h1 h2
        have hj : j < w.length := by
          simp only [List.length_map, List.length_range] at h2
          omega
        simp only [List.getElem_zipWith, List.getElem_map, List.getElem_range, List.getElem_zip]
        rw [List.getD_eq_getElem _ _ hj]
    rw [hzw, zero_add, ← hv] at hcs
    exact hcs

end Verif.Approx
