import Verif.TopK.Residue

/-!
# The series of one `f`, as a sum over roots of unity
-/

namespace Verif.TopK

open PowerSeries
open Verif.Barvinok (Mat Vec Ntl Cone lineFn)
open Verif.Barvinok.Spec

variable {m : ℕ} {bern : List ℚ} {k : ℕ}

theorem findResidue_spec (hb : BernOk bern k) (topK : Bool) (len : ℕ) (a : Fin (m + 1) → ℤ) (fDiv : List ℤ) (hfd : ∀ b ∈ fDiv, b ≠ 0)
    (hlen : len = fDiv.length + (m + 1)) (B : Mat (m + 1)) (s beta : Fin (m + 1) → ℤ) (L : List (Cone (m + 1))) : ∀ g : GMS,
    findResidue bern k topK len a fDiv B s beta L = some g →
    (∀ Cn ∈ L, ∀ i, ¬ (pair a B (Cn.rays i) = 0 ∧ pair beta B (Cn.rays i) = 0)) ∧
    (∀ r ∈ g, (if topK then 0 else k) ≤ r.x ∧ r.x ≤ k) ∧
    ∀ t, ∀ j ≤ k, (if topK then 0 else k) ≤ j → xcoef g t j = (L.map fun Cn => (Cn.coefficient : ℚ) *
      coeff (poles a B Cn.rays) (coeff j (coneSer a beta B s t Cn.rays * em ((fDiv.map fun b : ℤ => pole 1 (b : ℚ)).prod)))).sum := by
  induction L with
  | nil =>
    intro g h
    cases h
    exact ⟨by simp, by simp, fun t j _ _ => rfl⟩
  | cons Cn L ih =>
    intro g h
    rw [findResidue] at h
    split at h
    · cases h
    rename_i g1 h1
    split at h
    · cases h
    rename_i g2 h2
    cases h
    obtain ⟨a1, a2, a3⟩ := coneTerms_spec hb topK len a fDiv hfd hlen B s beta Cn g1 h1
    obtain ⟨b1, b2, b3⟩ := ih g2 h2
    refine ⟨fun D hD => ?_, fun r hr => ?_, fun t j hj hj0 => ?_⟩
    · rcases List.mem_cons.1 hD with rfl | hD
      · exact a1
      · exact b1 D hD
    · rcases List.mem_append.1 hr with hr | hr
      · exact a2 r hr
      · exact b2 r hr
    · rw [xcoef_append, a3 t j hj hj0, b3 t j hj hj0, List.map_cons, List.sum_cons]

theorem residueLoop_some (topK : Bool) (len : ℕ) (a : Fin (m + 1) → ℤ) (fDiv : List ℤ) (B : Mat (m + 1)) (s : Fin (m + 1) → ℤ) (L : List (Cone (m + 1)))
    (rnd : ℕ → ℕ → ℤ) (c : ℕ) : ∀ (att : ℕ) (g : GMS), residueLoop bern k topK len a fDiv B s L rnd c att = .ok g →
    ∃ beta, findResidue bern k topK len a fDiv B s beta L = some g := by
  induction c with
  | zero => intro att g h; cases h
  | succ c ih =>
    intro att g h
    rw [residueLoop] at h
    split at h
    · rename_i g' hg
      cases h
      exact ⟨_, hg⟩
    · exact ih _ _ h

/-- **One `f`, in terms of box points.** -/
theorem expandClass_spec (hb : BernOk bern k) (ntl : Ntl (m + 1)) (hN : ntl.Ok) (fuel : ℕ) (rnd : ℕ → ℕ → ℤ) (topK : Bool) (len : ℕ)
    (a : Fin (m + 1) → ℤ) (ha : ∀ i, a i ≠ 0) (fDiv : List ℤ) (hfd : ∀ b ∈ fDiv, b ≠ 0) (hlen : len = fDiv.length + (m + 1)) (f : ℕ) (hf : 0 < f)
    (hg : ∀ d : ℤ, d ∣ f → (∀ i, d ∣ a i) → IsUnit d) (g : GMS) (h : expandClass ntl fuel rnd bern k topK len a fDiv f = .ok g) :
    (∀ r ∈ g, (if topK then 0 else k) ≤ r.x ∧ r.x ≤ k) ∧
    ∀ t, ∀ j ≤ k, (if topK then 0 else k) ≤ j → xcoef g t j = coeff j (boxSeries a f t * (fDiv.map fun b : ℤ => pole 1 (b : ℚ)).prod) := by
  have hfz : (0 : ℤ) < f := by exact_mod_cast hf
  unfold expandClass at h
  split at h
  swap
  · cases h
  rename_i B s hB hs
  obtain ⟨hdet, hlat⟩ := findLatticeBasis_spec fuel a ⟨0, ha 0⟩ f hfz B hB
  have hvert := findVertex_spec fuel a f hfz hg s hs
  split at h
  · cases h
  rename_i L hL
  obtain ⟨huni, gl, hgl, hid⟩ := findUnimodularCones_spec ntl hN B hdet L hL
  obtain ⟨beta, hres⟩ := residueLoop_some topK len a fDiv B s L rnd fuel 0 g h
  obtain ⟨h1, h2, h3⟩ := findResidue_spec hb topK len a fDiv hfd hlen B s beta L g hres
  refine ⟨h2, fun t j hj hj0 => ?_⟩
  rw [h3 t j hj hj0]
  have key : ∀ j, coeff j (boxSeries a f t) = ∑ u : Fin L.length, ((L[u].coefficient : ℤ) : ℚ) *
      coeff (poles a B L[u].rays) (coeff j (coneSer a beta B s t L[u].rays)) := by
    intro j
    refine eps_limit a ha f hf B s hdet hlat hvert t (fun u : Fin L.length => L[u].coefficient) (fun u => L[u].rays)
      (fun u => huni _ (List.getElem_mem _)) (fun u => rawFraction B s L[u].rays)
      (fun u => rawFraction_spec B hdet s _ (huni _ (List.getElem_mem _)).ne_zero) gl hgl (fun y => ?_) beta
      (fun u i => pair a B (L[u].rays i)) (fun u i => pair beta B (L[u].rays i)) (fun _ _ => rfl) (fun _ _ => rfl)
      (fun u i => h1 _ (List.getElem_mem _) i) j
    rw [← hid y]
    exact Fin.sum_univ_fun_getElem L fun C => C.coefficient * ind (cone C.rays) y
  rw [coeff_mul]
  rw [← Fin.sum_univ_fun_getElem L fun Cn => (Cn.coefficient : ℚ) *
      coeff (poles a B Cn.rays) (coeff j (coneSer a beta B s t Cn.rays * em ((fDiv.map fun b : ℤ => pole 1 (b : ℚ)).prod)))]
  simp only [key, Finset.sum_mul]
  rw [Finset.sum_comm]
  refine Finset.sum_congr rfl fun u _ => ?_
  rw [coeff_mul_em, Finset.mul_sum]
  refine Finset.sum_congr rfl fun p _ => ?_
  exact (mul_assoc _ _ _).symm

theorem toC_poles (l : List ℤ) (hl : ∀ a ∈ l, 0 < a) :
    toC ((l.map fun a : ℤ => pole 1 (a : ℚ)).prod) = ((l.map Int.toNat).map fun a : ℕ => pole 1 (a : ℂ)).prod := by
  induction l with
  | nil => simp
  | cons a l ih =>
    have ha := hl a List.mem_cons_self
    have ha' : (a : ℚ) ≠ 0 := by exact_mod_cast ha.ne'
    simp only [List.map_cons, List.prod_cons, map_mul, ih fun b hb => hl b (List.mem_cons_of_mem _ hb), toC_pole_one _ ha']
    congr 2
    have : ((a.toNat : ℤ) : ℂ) = (a : ℂ) := by rw [Int.toNat_of_nonneg ha.le]
    rw [← Int.cast_natCast, this]
    norm_cast

/-- **The case `f = 1`.** -/
theorem expandF1_spec (hb : BernOk bern k) (alpha : List ℤ) (hα : ∀ a ∈ alpha, 0 < a) (topK : Bool) :
    (∀ r ∈ expandF1Case bern alpha k topK, (if topK then 0 else k) ≤ r.x ∧ r.x ≤ k) ∧
    ∀ t, ∀ j ≤ k, (if topK then 0 else k) ≤ j →
      xcoef (expandF1Case bern alpha k topK) t j = coeff j ((alpha.map fun b : ℤ => pole 1 (b : ℚ)).prod) := by
  unfold expandF1Case
  refine ⟨fun r hr => (mem_mul hr).2.2, fun t j hj hj0 => ?_⟩
  rw [xcoef_eq _ t 0 j fun r hr => by have := mem_mul hr; omega]
  rw [coeff_mul_window, if_pos ⟨le_rfl, le_rfl, hj0, hj⟩, ser_const, coeff_mul_C, coeff_mul_C, nonperiodic_agree hb 0 t alpha j hj 0 le_rfl]
  have h1 := congrArg (fun S => coeff 0 (coeff j S)) (em_poles alpha)
  beta_reduce at h1
  rw [coeff_em, if_pos rfl, coeff_C_mul, coeff_C_mul] at h1
  rw [h1, mul_comm]
  congr 1
  have h0 : (bottomProd alpha : ℚ) ≠ 0 := by
    rw [bottomProd_eq]
    have : alpha.prod ≠ 0 := fun h0 => absurd (hα 0 (List.prod_eq_zero_iff.1 h0)) (lt_irrefl _)
    exact_mod_cast this
  rcases Nat.even_or_odd alpha.length with hh | hh
  · rw [if_neg (by rw [Nat.even_iff.1 hh]; decide), hh.neg_one_pow]
  · rw [if_pos (Nat.odd_iff.1 hh), hh.neg_one_pow]
    push_cast
    field_simp

/-- **One `f`, as a sum over roots of unity.** -/
theorem expandOne_spec (hb : BernOk bern k) (env : Env) (hN : ∀ n, (env.ntl n).Ok) (topK : Bool) (alpha : List ℤ) (hα : ∀ a ∈ alpha, 0 < a)
    (hg : ∀ d : ℤ, (∀ a ∈ alpha, d ∣ a) → IsUnit d) (i : ℕ) (f : ℕ) (hf : 0 < f) (g : GMS) (h : expandOne env bern k topK alpha i f = .ok g) :
    (∀ r ∈ g, (if topK then 0 else k) ≤ r.x ∧ r.x ≤ k) ∧
    ∀ t, ∀ j ≤ k, (if topK then 0 else k) ≤ j → (((f : ℚ) * xcoef g t j : ℚ) : ℂ) = coeff j (classL (alpha.map Int.toNat) f t) := by
  unfold expandOne at h
  split at h
  · rename_i h1
    have hf1 : f = 1 := by exact_mod_cast h1
    subst hf1
    cases h
    obtain ⟨a1, a2⟩ := expandF1_spec hb alpha hα topK
    refine ⟨a1, fun t j hj hj0 => ?_⟩
    rw [a2 t j hj hj0, Nat.cast_one, one_mul, ← coeff_toC, toC_poles alpha hα]
    unfold classL
    have hr : roots 1 = {1} := by
      ext z
      rw [mem_roots one_pos, pow_one, Finset.mem_singleton]
    rw [hr, Finset.sum_singleton, one_zpow, map_one, one_mul]
    simp only [one_pow]
  · rename_i h1
    simp only at h
    split at h
    · cases h
    rename_i m hm
    set fDiv := alpha.filter fun a => (f : ℤ) ∣ a with hfDiv
    set fnDiv := alpha.filter fun a => ¬ (f : ℤ) ∣ a with hfnDiv
    have hfnmem : ∀ i : Fin (m + 1), fnDiv.getD i 0 ∈ fnDiv := fun i => by
      rw [List.getD_eq_getElem _ _ (by rw [hm]; exact i.2)]
      exact List.getElem_mem _
    have hapos : ∀ i : Fin (m + 1), 0 < fnDiv.getD i 0 := fun i => hα _ (List.mem_filter.1 (hfnmem i)).1
    have hlen : alpha.length = fDiv.length + (m + 1) := by
      have hm' : fnDiv.length = m + 1 := hm
      rw [← hm', hfDiv, hfnDiv, ← List.countP_eq_length_filter, ← List.countP_eq_length_filter]
      have := List.length_eq_countP_add_countP (l := alpha) (fun a => decide ((f : ℤ) ∣ a))
      rw [this]
      congr 2
      funext a
      by_cases h : (f : ℤ) ∣ a <;> simp [h]
    have hgcd : ∀ d : ℤ, d ∣ f → (∀ i : Fin (m + 1), d ∣ fnDiv.getD i 0) → IsUnit d := by
      intro d hd hi
      refine hg d fun a hmem => ?_
      by_cases hda : (f : ℤ) ∣ a
      · exact hd.trans hda
      · have hmem' : a ∈ fnDiv := List.mem_filter.2 ⟨hmem, by simpa using hda⟩
        obtain ⟨u, hu, rfl⟩ := List.mem_iff_getElem.1 hmem'
        have := hi ⟨u, by omega⟩
        rwa [List.getD_eq_getElem _ _ hu] at this
    obtain ⟨a1, a2⟩ := expandClass_spec hb (env.ntl (m + 1)) (hN _) env.fuel (env.rnd i) topK alpha.length (fun i : Fin (m + 1) => fnDiv.getD i 0)
      (fun i => (hapos i).ne') fDiv (fun b hb => (hα b (List.mem_filter.1 hb).1).ne') hlen f hf hgcd g h
    refine ⟨a1, fun t j hj hj0 => ?_⟩
    rw [a2 t j hj hj0]
    have hfil : ∀ (l : List ℤ), (∀ a ∈ l, 0 < a) → (l.map Int.toNat).filter (fun a => f ∣ a) = (l.filter fun a => (f : ℤ) ∣ a).map Int.toNat ∧
        (l.map Int.toNat).filter (fun a => ¬ f ∣ a) = (l.filter fun a => ¬ (f : ℤ) ∣ a).map Int.toNat := by
      intro l hl
      have e : ∀ a ∈ l, (f ∣ a.toNat ↔ (f : ℤ) ∣ a) := fun a ha => by
        rw [← Int.natCast_dvd_natCast, Int.toNat_of_nonneg (hl a ha).le]
      rw [List.filter_map, List.filter_map]
      constructor
      · congr 1
        exact List.filter_congr fun a ha => by simp [e a ha]
      · congr 1
        exact List.filter_congr fun a ha => by simp [e a ha]
    obtain ⟨e1, e2⟩ := hfil alpha hα
    rw [classL_split _ f hf t, e1, e2, ← toC_poles _ fun b hb => hα b (List.mem_filter.1 hb).1]
    have e3 : (alpha.filter fun a => ¬ (f : ℤ) ∣ a).map Int.toNat = List.ofFn fun i : Fin (m + 1) => (fnDiv.getD i 0).toNat := by
      apply List.ext_getElem
      · rw [List.length_map, List.length_ofFn, hm]
      · intro u h1 h2
        rw [List.length_ofFn] at h2
        rw [List.getElem_map, List.getElem_ofFn, List.getD_eq_getElem _ _ (by rw [hm]; exact h2)]
    rw [e3, classL_ofFn, classSeries_box _ (fun i => by have := hapos i; omega) f hf t]
    have e4 : (fun i : Fin (m + 1) => (((fnDiv.getD i 0).toNat : ℕ) : ℤ)) = fun i : Fin (m + 1) => fnDiv.getD i 0 := by
      funext i
      exact Int.toNat_of_nonneg (hapos i).le
    rw [e4, mul_left_comm, coeff_C_mul, ← map_mul, coeff_toC, mul_comm (List.map _ fDiv).prod]
    push_cast
    rfl

end Verif.TopK
