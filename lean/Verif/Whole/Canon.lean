import Verif.Whole.Text
import Verif.Whole.Reduce
import Verif.Gmp.Props

/-!
# C91: the rows of the canonical matrix as equations and inequalities
-/

namespace Verif.Whole

open Verif.Barvinok Verif.Barvinok.Spec Verif.Ti2 Verif.Files Verif.Preprocess

variable {n m : ℕ}

/-- A row of the matrix in integers. -/
def intRow (n : ℕ) (raw : List RawQ) : Row n := ⟨(raw.getD 0 (0, 1)).1, fun k => (raw.getD (k + 1) (0, 1)).1⟩

/-- All denominators are one. -/
def Integral (raw : List RawQ) : Prop := ∀ q ∈ raw, q.2 = 1

theorem mapM_convert (raw : List RawQ) (h : Integral raw) : (raw.mapM fun q => Gmp.convertMpqToZZ q.1 q.2.toNat) = some (raw.map (·.1)) := by
  induction raw with
  | nil => rfl
  | cons q raw ih =>
    have hq : q.2 = 1 := h q (by simp)
    have e : Gmp.convertMpqToZZ q.1 q.2.toNat = some q.1 := by
      rw [hq]
      simp [Gmp.convertMpqToZZ, Gmp.c37_mpz_to_zz]
    rw [List.mapM_cons, e, ih fun q' hq' => h q' (by simp [hq'])]
    rfl

theorem toRow_eq (raw : List RawQ) (h : Integral raw) : toRow n raw = some (intRow n raw) := by
  unfold toRow
  rw [mapM_convert raw h, Option.map_some]
  have key : ∀ i : ℕ, (raw.map (·.1)).getD i 0 = (raw.getD i (0, 1)).1 := by
    intro i
    rw [List.getD_eq_getElem?_getD, List.getD_eq_getElem?_getD, List.getElem?_map]
    cases raw[i]? <;> rfl
  simp only [key]
  rfl

theorem splitRows_from (linset : Finset ℕ) (rows : List (List RawQ)) (h : ∀ r ∈ rows, Integral r) : ∀ i,
    splitRows n linset i rows = some ((((rows.zipIdx i).filter fun p => decide (p.2 + 1 ∈ linset) == true).map (·.1)).map (intRow n),
      (((rows.zipIdx i).filter fun p => decide (p.2 + 1 ∈ linset) == false).map (·.1)).map (intRow n)) := by
  induction rows with
  | nil => intro i; rfl
  | cons r rows ih =>
    intro i
    rw [splitRows, toRow_eq r (h r (by simp)), ih (fun r' hr' => h r' (by simp [hr'])) (i + 1)]
    by_cases hi : i + 1 ∈ linset
    · simp [List.zipIdx_cons, hi]
    · simp [List.zipIdx_cons, hi]

theorem splitRows_eq (M : LMatrix) (h : ∀ r ∈ M.rows, Integral r) :
    splitRows n M.linset 0 M.rows = some ((part M true).map (intRow n), (part M false).map (intRow n)) := splitRows_from M.linset M.rows h 0

theorem part_mem {M : LMatrix} {e : Bool} {r : List RawQ} (h : r ∈ part M e) : r ∈ M.rows := by
  unfold part at h
  obtain ⟨p, hp, rfl⟩ := List.mem_map.1 h
  have h1 := (List.mem_filter.1 hp).1
  obtain ⟨-, -, h3⟩ := List.mem_zipIdx h1
  rw [h3]
  exact List.getElem_mem _

theorem rawR_one {q : RawQ} (h : q.2 = 1) : rawR q = (q.1 : ℝ) := by
  unfold rawR
  rw [h]
  simp

theorem getD_integral {raw : List RawQ} (h : Integral raw) (i : ℕ) : rawR (raw.getD i (0, 1)) = ((raw.getD i (0, 1)).1 : ℝ) := by
  apply rawR_one
  rw [List.getD_eq_getElem?_getD]
  cases he : raw[i]? with
  | none => rfl
  | some q => exact h q (List.mem_of_getElem? he)

theorem value_intRow {raw : List RawQ} (h : Integral raw) (x : Fin n → ℝ) : value raw x = ((intRow n raw).b : ℝ) + dot (intRow n raw).a x := by
  unfold value dot intRow
  rw [getD_integral h]
  congr 1
  exact Finset.sum_congr rfl fun k _ => by rw [getD_integral h]

theorem sols_both {E I : List (List RawQ)} (hE : ∀ r ∈ E, Integral r) (hI : ∀ r ∈ I, Integral r) :
    Sols n E I = Polyhedron (both (E.map (intRow n)) (I.map (intRow n))) := by
  ext x
  rw [mem_both]
  unfold Sols
  simp only [Set.mem_ofPred_eq, List.mem_map, forall_exists_index, and_imp, forall_apply_eq_imp_iff₂]
  refine and_congr (forall_congr' fun r => imp_congr_right fun hr => ?_) (forall_congr' fun r => imp_congr_right fun hr => ?_)
  · rw [value_intRow (hE r hr)]
  · rw [value_intRow (hI r hr)]

/-! ## The matrix of a problem -/

theorem matrix_integral (P : Empty.Problem n) : ∀ r ∈ (matrix P).rows, Integral r := by
  intro r hr q hq
  rcases List.mem_append.1 hr with h | h
  · obtain ⟨r', -, rfl⟩ := List.mem_map.1 h
    unfold rawRow at hq
    rcases List.mem_cons.1 hq with rfl | hq
    · rfl
    · obtain ⟨k, rfl⟩ := (List.mem_ofFn' _ _).1 hq
      rfl
  · obtain ⟨j, -, rfl⟩ := List.mem_map.1 h
    unfold unitRow at hq
    rcases List.mem_or_eq_of_mem_set hq with hq | rfl
    · rw [(List.mem_replicate.1 hq).2]
    · rfl

theorem matrix_length (P : Empty.Problem n) : ∀ r ∈ (matrix P).rows, r.length = n + 1 := by
  intro r hr
  rcases List.mem_append.1 hr with h | h
  · obtain ⟨r', -, rfl⟩ := List.mem_map.1 h
    simp [rawRow]
  · obtain ⟨j, -, rfl⟩ := List.mem_map.1 h
    simp [unitRow]

theorem intRow_rawRow (r : ℤ × (Fin n → ℤ)) : intRow n (rawRow r) = ⟨r.1, r.2⟩ := by
  unfold intRow rawRow
  congr 1
  funext k
  rw [List.getD_cons_succ, List.getD_eq_getElem _ _ (by simp)]
  simp

theorem value_rawRow (r : ℤ × (Fin n → ℤ)) (x : Fin n → ℝ) : value (rawRow r) x = (r.1 : ℝ) + ∑ k, (r.2 k : ℝ) * x k := by
  have hi : Integral (rawRow r) := by
    intro q hq
    unfold rawRow at hq
    rcases List.mem_cons.1 hq with rfl | hq
    · rfl
    · obtain ⟨k, rfl⟩ := (List.mem_ofFn' _ _).1 hq
      rfl
  rw [value_intRow hi, intRow_rawRow]
  rfl

theorem value_unitRow (k : Fin n) (x : Fin n → ℝ) : value (unitRow n (k + 1)) x = x k := by
  unfold value unitRow
  have h : ∀ i : ℕ, i < n + 1 → ((List.replicate (n + 1) ((0, 1) : RawQ)).set (k + 1) (1, 1)).getD i (0, 1) = if i = k + 1 then (1, 1) else (0, 1) := by
    intro i hi
    rw [List.getD_eq_getElem _ _ (by simpa using hi), List.getElem_set]
    by_cases hik : (k : ℕ) + 1 = i
    · rw [if_pos hik, if_pos hik.symm]
    · rw [if_neg hik, if_neg (Ne.symm hik)]
      simp
  rw [h 0 (by omega)]
  have : ∀ j : Fin n, rawR (((List.replicate (n + 1) ((0, 1) : RawQ)).set (k + 1) (1, 1)).getD (j + 1) (0, 1)) * x j = if j = k then x k else 0 := by
    intro j
    rw [h (j + 1) (by omega)]
    by_cases hj : j = k
    · subst hj
      simp [rawR]
    · rw [if_neg (by intro h; exact hj (Fin.ext (by omega))), if_neg hj]
      simp [rawR]
  simp only [this]
  simp [rawR]

theorem sols_matrix_iff (M : LMatrix) (x : Fin n → ℝ) : x ∈ Sols n (part M true) (part M false) ↔
    ∀ (i : ℕ) (r : List RawQ), M.rows[i]? = some r → (i + 1 ∈ M.linset → value r x = 0) ∧ (i + 1 ∉ M.linset → 0 ≤ value r x) := by
  have hmem : ∀ (e : Bool) (r : List RawQ), r ∈ part M e ↔ ∃ i, M.rows[i]? = some r ∧ (decide (i + 1 ∈ M.linset) == e) = true := by
    intro e r
    unfold part
    simp only [List.mem_map, List.mem_filter, Prod.exists, exists_and_right, exists_eq_right, List.mem_zipIdx_iff_getElem?]
  unfold Sols
  simp only [Set.mem_ofPred_eq, hmem]
  constructor
  · rintro ⟨h1, h2⟩ i r hr
    exact ⟨fun hi => h1 r ⟨i, hr, by simpa using hi⟩, fun hi => h2 r ⟨i, hr, by simpa using hi⟩⟩
  · intro h
    constructor
    · rintro r ⟨i, hr, hi⟩
      exact (h i r hr).1 (by simpa using hi)
    · rintro r ⟨i, hr, hi⟩
      exact (h i r hr).2 (by simpa using hi)

/-- The matrix has the solutions of the problem. -/
theorem sols_matrix (P : Empty.Problem n) (h : P.Ok) : Sols n (part (matrix P) true) (part (matrix P) false) = P.Solutions := by
  ext x
  rw [sols_matrix_iff]
  unfold Empty.Problem.Solutions
  simp only [Set.mem_ofPred_eq]
  have hlin : ∀ i, i + 1 ∈ (matrix P).linset ↔ i + 1 ∈ P.linearity.getD [] := fun i => List.mem_toFinset
  constructor
  · intro hx
    have hrow : ∀ (i : ℕ) r, P.rows[i]? = some r → (matrix P).rows[i]? = some (rawRow r) := by
      intro i r hr
      have hi := (List.getElem?_eq_some_iff.1 hr).1
      show (P.rows.map rawRow ++ _)[i]? = _
      rw [List.getElem?_append_left (by simpa using hi), List.getElem?_map, hr]
      rfl
    refine ⟨fun r hr => ?_, fun e he r hr => ?_, fun k hk => ?_⟩
    · obtain ⟨i, hi⟩ := List.mem_iff_getElem?.1 hr
      have := hx i _ (hrow i r hi)
      rw [value_rawRow] at this
      by_cases hl : i + 1 ∈ (matrix P).linset
      · exact (this.1 hl).ge
      · exact this.2 hl
    · have h1 := (h.lin e he).1
      have e1 : e - 1 + 1 = e := by omega
      have := (hx (e - 1) _ (hrow _ r hr)).1 ((hlin _).2 (by rw [e1]; exact he))
      rwa [value_rawRow] at this
    · obtain ⟨i, hi⟩ := List.mem_iff_getElem?.1 hk
      have hm : (matrix P).rows[P.rows.length + i]? = some (unitRow n (k + 1)) := by
        show (P.rows.map rawRow ++ (P.nonnegative.getD []).map (unitRow n))[P.rows.length + i]? = _
        rw [List.getElem?_append_right (by simp), List.getElem?_map]
        simp only [List.length_map, Nat.add_sub_cancel_left, hi, Option.map_some]
      have := (hx _ _ hm).2 (by
        rw [hlin]
        intro hh
        have := (h.lin _ hh).2
        omega)
      rwa [value_unitRow] at this
  · rintro ⟨h1, h2, h3⟩ i r hr
    by_cases hi : i < P.rows.length
    · have e : (matrix P).rows[i]? = some (rawRow P.rows[i]) := by
        show (P.rows.map rawRow ++ _)[i]? = _
        rw [List.getElem?_append_left (by simpa using hi), List.getElem?_map, List.getElem?_eq_getElem hi]
        rfl
      rw [e] at hr
      obtain rfl := Option.some.inj hr
      rw [value_rawRow]
      exact ⟨fun hl => h2 _ ((hlin i).1 hl) _ (by rw [Nat.add_sub_cancel, List.getElem?_eq_getElem hi]), fun _ => h1 _ (List.getElem_mem hi)⟩
    · have hn : i + 1 ∉ (matrix P).linset := by
        rw [hlin]
        intro hh
        have := (h.lin _ hh).2
        omega
      refine ⟨fun hl => absurd hl hn, fun _ => ?_⟩
      have hr' : (P.rows.map rawRow ++ (P.nonnegative.getD []).map (unitRow n))[i]? = some r := hr
      rw [List.getElem?_append_right (by simpa using not_lt.1 hi), List.getElem?_map] at hr'
      obtain ⟨j, hj, rfl⟩ := Option.map_eq_some_iff.1 hr'
      have hjm := List.mem_of_getElem? hj
      obtain ⟨hj1, hj2⟩ := h.nonneg j hjm
      have ej : j = ((⟨j - 1, by omega⟩ : Fin n) : ℕ) + 1 := by simp; omega
      rw [ej, value_unitRow]
      exact h3 _ (by rw [← ej]; exact hjm)

end Verif.Whole
