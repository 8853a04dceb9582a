import Verif.Valuation.ConeExample

/-! C57: the random search in the volume computation by cone decomposition. -/

namespace Verif.Valuation

open MeasureTheory Set Verif.Measure Verif.Trie Latte.RatVec

theorem dotZ_cons (a b : ℤ) (x y : List ℤ) : dotZ (a :: x) (b :: y) = a * b + dotZ x y := by
  simp [dotZ]

/-- fewer than 10000 nonzero vectors are all missed by some vector with entries in 0, ..., 9999 -/
theorem exists_avoiding (n : ℕ) : ∀ rs : List (List ℤ), (∀ r ∈ rs, r.length = n ∧ ∃ x ∈ r, x ≠ 0) → rs.length < 10000 →
    ∃ c : List ℕ, c.length = n ∧ (∀ x ∈ c, x < 10000) ∧ ∀ r ∈ rs, dotZ (c.map fun x : ℕ => (x : ℤ)) r ≠ 0 := by
  induction n with
  | zero =>
    intro rs h _
    refine ⟨[], rfl, by simp, ?_⟩
    intro r hr
    obtain ⟨h1, x, hx, _⟩ := h r hr
    rw [List.length_eq_zero_iff] at h1
    subst h1; simp at hx
  | succ n ih =>
    intro rs h hlen
    obtain ⟨c, hc1, hc2, hc3⟩ := ih ((rs.map List.tail).filter fun r => r.any fun x => decide (x ≠ 0)) (by
      intro r hr
      rw [List.mem_filter, List.mem_map] at hr
      obtain ⟨⟨q, hq, rfl⟩, ha⟩ := hr
      refine ⟨by rw [List.length_tail, (h q hq).1]; rfl, ?_⟩
      obtain ⟨x, hx, h0⟩ := List.any_eq_true.1 ha
      exact ⟨x, hx, by simpa using h0⟩)
      (lt_of_le_of_lt (List.length_filter_le _ _) (by simpa using hlen))
    -- every vector rules out at most one first entry
    let bad : List ℤ → ℕ := fun r => (-(dotZ (c.map fun x : ℕ => (x : ℤ)) r.tail) / r.headD 0).toNat
    have hcard : ((rs.map bad).toFinset).card < (Finset.range 10000).card := by
      rw [Finset.card_range]
      exact lt_of_le_of_lt (List.toFinset_card_le _) (by simpa using hlen)
    obtain ⟨t, ht, hn⟩ := Finset.exists_mem_notMem_of_card_lt_card hcard
    rw [Finset.mem_range] at ht
    rw [List.mem_toFinset] at hn
    refine ⟨t :: c, by simp [hc1], ?_, ?_⟩
    · intro x hx
      rcases List.mem_cons.1 hx with rfl | hx
      · exact ht
      · exact hc2 x hx
    · intro r hr h0
      obtain ⟨hl, x, hx, hx0⟩ := h r hr
      match r, hl with
      | a :: r', hl =>
        rw [List.map_cons, dotZ_cons] at h0
        by_cases ha : a = 0
        · subst ha
          rw [mul_zero, zero_add] at h0
          refine hc3 r' ?_ h0
          rw [List.mem_filter]
          refine ⟨List.mem_map.2 ⟨_, hr, rfl⟩, List.any_eq_true.2 ⟨x, ?_, by simpa using hx0⟩⟩
          rcases List.mem_cons.1 hx with rfl | hx
          · exact absurd rfl hx0
          · exact hx
        · apply hn
          refine List.mem_map.2 ⟨_, hr, ?_⟩
          simp only [bad, List.tail_cons, List.headD_cons]
          have : -dotZ (c.map fun x : ℕ => (x : ℤ)) r' = (t : ℤ) * a := by linarith
          rw [this, Int.mul_ediv_cancel _ ha]
          simp

theorem lawVolLoop_some (n : ℕ) (c : List ℤ) (cs : List VCone)
    (h : ∀ k ∈ cs, (scale k.vertex).2.1 ≠ 0 ∧ ∀ r ∈ k.rays, dotZ c r ≠ 0) : ∀ a : ℚ, lawVolLoop n c cs a ≠ none := by
  induction cs with
  | nil => intro a; simp [lawVolLoop]
  | cons k cs ih =>
    intro a
    rw [lawVolLoop, foldl_mul_map, if_neg]
    · exact ih (fun k hk => h k (by simp [hk])) _
    · apply mul_ne_zero (pow_ne_zero _ (h k (by simp)).1)
      apply List.prod_ne_zero
      intro h0
      obtain ⟨r, hr, e⟩ := List.mem_map.1 h0
      exact (h k (by simp)).2 r hr (by linarith)

theorem lawVolSearch_some (n : ℕ) (cs : List VCone) (blk : List ℕ) (hb : blk.length = n)
    (h : lawVolLoop n (blk.map fun r => ((r % 10000 : ℕ) : ℤ)) cs 0 ≠ none) : ∀ (k fuel : ℕ) (pre post : List ℕ), pre.length = n * k → k < fuel →
    lawVolSearch n cs fuel (pre ++ blk ++ post) ≠ none := by
  intro k
  induction k with
  | zero =>
    intro fuel pre post hp hf
    obtain ⟨f, rfl⟩ : ∃ f, fuel = f + 1 := ⟨fuel - 1, by omega⟩
    have : pre = [] := List.length_eq_zero_iff.1 (by simpa using hp)
    subst this
    rw [lawVolSearch, if_neg (by simp; omega)]
    have ht : ([] ++ blk ++ post).take n = blk := by rw [List.nil_append, List.take_append_of_le_length (by omega), List.take_of_length_le (by omega)]
    rw [ht]
    split
    · simp
    · rename_i e; exact absurd e h
  | succ k ih =>
    intro fuel pre post hp hf
    obtain ⟨f, rfl⟩ : ∃ f, fuel = f + 1 := ⟨fuel - 1, by omega⟩
    have hge : n ≤ pre.length := by rw [hp]; nlinarith
    rw [lawVolSearch, if_neg (by simp; omega)]
    split
    · simp
    · have hdrop : (pre ++ blk ++ post).drop n = pre.drop n ++ blk ++ post := by
        rw [List.append_assoc, List.drop_append_of_le_length hge, List.append_assoc]
      rw [hdrop]
      exact ih f _ _ (by rw [List.length_drop, hp, Nat.mul_succ]; omega) (by omega)

/-- **C57.** If the decompositions of the tangent cones have fewer than 10000 rays in all, there is a vector of numbers below 10000 such
that the volume computation ends with an answer as soon as a round of its loop draws that vector, whatever was drawn before. -/
theorem c57_volume_ends (T : ℕ → VCone → List VCone) (n : ℕ) (hn : 0 < n) (cones : List VCone) (h : TangentCones n cones)
    (hT : TriangulatesCones T n cones)
    (hfew : (∑ i : Fin cones.length, (T i cones[i]).length) * n < 10000) :
    ∃ good : List ℕ, good.length = n ∧ (∀ x ∈ good, x < 10000) ∧ ∀ (k : ℕ) (pre blk post : List ℕ), pre.length = n * k →
      blk.map (· % 10000) = good → ∃ (r : ℚ) (p' : PV), findVolume T .cone (pre ++ blk ++ post) (ofCones n cones) = some (r, p') ∧
        (r : ℝ) = (volume (polytope n cones)).toReal := by
  have hall := allOk T n cones h.tc (by
    intro i c hc
    have hm := List.mem_of_getElem? hc
    have := hT i c hc c.vertex (h.vertex c hm) ⟨1, one_pos, by simp⟩
    exact this)
  set cs := triangulateLoop T 0 cones [] with hcs
  have hcount : cs.length = ∑ i : Fin cones.length, (T i cones[i]).length := by
    have := triangulateLoop_sum T (fun _ => 1) cones 0 []
    rw [← hcs] at this
    simp only [List.map_const', List.sum_replicate, smul_eq_mul, mul_one, zero_add, List.length_nil, nsmul_eq_mul, Nat.cast_zero, add_zero] at this
    exact_mod_cast this
  have hlen : ∀ l : List VCone, (∀ k ∈ l, k.rays.length = n) → (l.flatMap (·.rays)).length = l.length * n := by
    intro l
    induction l with
    | nil => simp
    | cons k l ih =>
      intro hl
      rw [List.flatMap_cons, List.length_append, ih (fun k hk => hl k (by simp [hk])), hl k (by simp), List.length_cons]; ring
  obtain ⟨good, g1, g2, g3⟩ := exists_avoiding n (cs.flatMap (·.rays)) (by
    intro r hr
    obtain ⟨k, hk, hr⟩ := List.mem_flatMap.1 hr
    refine ⟨hall.len k hk r hr, ?_⟩
    obtain ⟨i, hi⟩ := Latte.Lawrence.ray_nonzero n k.rays (hall.size k hk) (hall.indep k hk) r hr
    have hi' : (i : ℕ) < r.length := by rw [hall.len k hk r hr]; exact i.2
    exact ⟨r[(i : ℕ)], List.getElem_mem _, by rw [List.getD_eq_getElem _ _ hi'] at hi; exact hi⟩) (by
    rw [hlen cs hall.size, hcount]; exact hfew)
  refine ⟨good, g1, g2, ?_⟩
  intro k pre blk post hpre hblk
  have hb : blk.length = n := by rw [← g1, ← hblk]; simp
  have hs : lawVolSearch n cs ((pre ++ blk ++ post).length + 1) (pre ++ blk ++ post) ≠ none := by
    refine lawVolSearch_some n cs blk hb ?_ k _ pre post hpre ?_
    · apply lawVolLoop_some
      intro q hq
      obtain ⟨c, hc, e⟩ := hall.vertex q hq
      refine ⟨by rw [e]; exact (scale_spec n _ (h.vertex c hc)).1.ne', ?_⟩
      intro r hr
      have := g3 r (List.mem_flatMap.2 ⟨q, hq, hr⟩)
      rw [← hblk, List.map_map] at this
      exact this
    · have : k ≤ pre.length := by rw [hpre]; nlinarith
      simp; omega
  have hfv : ∃ rp, findVolume T .cone (pre ++ blk ++ post) (ofCones n cones) = some rp := by
    unfold findVolume
    simp only
    rw [triangulateVertexRays_eq T _ cones rfl rfl hall.ne]
    obtain ⟨a, ha⟩ := Option.ne_none_iff_exists'.1 hs
    unfold volumeLawrence
    simp only [Option.getD_some]
    rw [show (ofCones n cones).numOfVars = n from rfl, ← hcs, ha]
    exact ⟨_, rfl⟩
  obtain ⟨⟨r, p'⟩, e⟩ := hfv
  exact ⟨r, p', e, c55_volume T n cones h hT _ r p' e⟩

/-- C57 applies to the triangle of `ConeExample`. -/
example : (∑ i : Fin exCones.length, ((fun (_ : ℕ) (c : VCone) => [c]) i exCones[i]).length) * 2 < 10000 := by decide

/-- the loop never ends if the random vector is always zero -/
theorem c57_zero_draws (m : ℕ) : (findVolume (fun _ c => [c]) .cone (List.replicate m 0) (ofCones 2 exCones)) = none := by
  have key : ∀ (fuel m : ℕ), lawVolSearch 2 (exCones.reverse) fuel (List.replicate m 0) = none := by
    intro fuel
    induction fuel with
    | zero => intro m; rfl
    | succ fuel ih =>
      intro m
      rw [lawVolSearch]
      split_ifs with hm
      · rfl
      · rw [List.length_replicate] at hm
        rw [List.take_replicate, List.drop_replicate, Nat.min_eq_left (by omega)]
        have : lawVolLoop 2 ((List.replicate 2 0).map fun r => ((r % 10000 : ℕ) : ℤ)) exCones.reverse 0 = none := by decide +kernel
        rw [this]
        exact ih _
  unfold findVolume
  simp only
  rw [triangulateVertexRays_eq _ _ exCones rfl rfl (by simp [exCones, triangulateLoop])]
  unfold volumeLawrence
  simp only [Option.getD_some, Option.map_eq_none_iff]
  exact key _ m

end Verif.Valuation
