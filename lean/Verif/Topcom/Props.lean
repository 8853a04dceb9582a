import Verif.Topcom.Model
import Mathlib.Data.List.TakeWhile

/-!
# C100: reading triangulations of TOPCOM
-/

namespace Verif.Topcom

open Verif.Files Latte.Decimal

variable {α : Type}

/-! ### Specification: the format -/

/-- Items separated by commas. -/
def commas : List (List Char) → List Char
  | [] => []
  | [a] => a
  | a :: b :: l => a ++ ',' :: commas (b :: l)

/-- `{0,1,2}` -/
def simplexText (S : List ℕ) : List Char := '{' :: commas (S.map fun i : ℕ => printInt (i : ℤ)) ++ ['}']

/-- `{{0,1,2},{1,2,3}}` -/
def triangulationText (T : List (List ℕ)) : List Char := '{' :: commas (T.map simplexText) ++ ['}']

/-- The output of TOPCOM for several triangulations: each with a label in front and characters behind, all without braces. -/
def outputText : List (List Char × List (List ℕ)) → List Char → List Char
  | [], tail => tail
  | (label, T) :: l, tail => label ++ (triangulationText T ++ outputText l tail)

/-! ### The rounds suffice -/

theorem dropWhile_length (p : Char → Bool) (s : List Char) : (s.dropWhile p).length ≤ s.length := (List.dropWhile_suffix p).length_le

theorem scanInt_length {s r : List Char} {z : ℤ} (h : scanInt s = some (z, r)) : r.length < s.length := by
  unfold scanInt at h
  have hl : (s.dropWhile isSpace).length ≤ s.length := dropWhile_length _ _
  split at h
  · cases h
  · rename_i c cs heq
    rw [heq] at hl
    split at h
    · obtain ⟨z', -, e⟩ := Option.map_eq_some_iff.1 h
      cases e
      have := dropWhile_length isDigit cs
      simp only [List.length_cons] at hl
      omega
    · cases h

theorem readInt_length {s r : List Char} {z : ℤ} (h : readInt s = some (z, r)) : r.length < s.length := by
  unfold readInt at h
  obtain ⟨p, hp, e⟩ := Option.bind_eq_some_iff.1 h
  split at e
  · cases e; exact scanInt_length hp
  · cases e

theorem rayLoop_ends (rays : List α) (f : ℕ) : ∀ (s : List Char) (acc : List α), s.length < f → rayLoop rays f s acc ≠ .fuel ∧
    ∀ rs s2 g, rayLoop rays f s acc = .stop rs s2 g → s2.length ≤ s.length := by
  induction f with
  | zero => intro s acc h; omega
  | succ f ih =>
    intro s acc h
    unfold rayLoop
    split
    · exact ⟨by simp, by simp⟩
    rename_i c cs
    split
    · refine ⟨by simp, fun rs s2 g e => ?_⟩
      cases e; exact le_rfl
    split
    · rename_i z r hr
      have hlen := readInt_length hr
      split
      · exact ⟨by simp, by simp⟩
      split
      · refine ⟨by simp, fun rs s2 g e => ?_⟩
        cases e; exact Nat.zero_le _
      · rename_i d r'
        simp only [List.length_cons] at hlen h
        split
        · obtain ⟨h1, h2⟩ := ih r' _ (by omega)
          exact ⟨h1, fun rs s2 g e => (h2 rs s2 g e).trans (by simp only [List.length_cons]; omega)⟩
        · obtain ⟨h1, h2⟩ := ih (d :: r') _ (by simp only [List.length_cons]; omega)
          exact ⟨h1, fun rs s2 g e => (h2 rs s2 g e).trans (by simp only [List.length_cons]; omega)⟩
    · split
      · split
        · exact ⟨by simp, by simp⟩
        · refine ⟨by simp, fun rs s2 g e => ?_⟩
          cases e; exact le_rfl
      · exact ⟨by simp, by simp⟩

theorem simplices_ends (rays : List α) (f : ℕ) : ∀ (s : List Char) (acc : List (List α)), s.length < f → simplices rays f s acc ≠ .fuel ∧
    ∀ T r, simplices rays f s acc = .ok T r → T ≠ [] ∧ r.length < s.length := by
  induction f with
  | zero => intro s acc h; omega
  | succ f ih =>
    intro s acc h
    unfold simplices
    split
    · exact ⟨by simp, by simp⟩
    rename_i c s1
    split
    · obtain ⟨h1, h2⟩ := rayLoop_ends rays (s1.length + 1) s1 [] (by omega)
      split
      · rename_i e; exact absurd e h1
      · exact ⟨by simp, by simp⟩
      · exact ⟨by simp, by simp⟩
      · rename_i rs s2 e
        have hl := h2 _ _ _ e
        split
        · rename_i a d s4
          simp only [List.length_cons] at hl h
          split
          · refine ⟨by simp, fun T r e => ?_⟩
            cases e
            exact ⟨by simp, by simp only [List.length_cons]; omega⟩
          · split
            · obtain ⟨i1, i2⟩ := ih s4 (acc ++ [rs]) (by omega)
              exact ⟨i1, fun T r e => ⟨(i2 T r e).1, (i2 T r e).2.trans (by simp only [List.length_cons]; omega)⟩⟩
            · exact ⟨by simp, by simp⟩
        · exact ⟨by simp, by simp⟩
    · exact ⟨by simp, by simp⟩

theorem read_ends (rays : List α) (s : List Char) : readTriangulation rays s ≠ .fuel ∧
    ∀ T r, readTriangulation rays s = .ok T r → T ≠ [] ∧ r.length < s.length := by
  rw [readTriangulation]
  have hl := dropWhile_length (fun c : Char => decide (c ≠ '{')) s
  split
  · exact ⟨by simp, by simp⟩
  · rename_i c s1 e
    rw [e] at hl
    simp only [List.length_cons] at hl
    obtain ⟨h1, h2⟩ := simplices_ends rays (s1.length + 1) s1 [] (by omega)
    exact ⟨h1, fun T r e => ⟨(h2 T r e).1, by have := (h2 T r e).2; omega⟩⟩

/-! ### All triangulations -/

theorem allLoop_ends (rays : List α) (f : ℕ) : ∀ (s : List Char) (acc : List (List (List α))), s.length < f →
    allLoop rays f s acc = .exit ∨ allLoop rays f s acc = .undefined := by
  induction f with
  | zero => intro s acc h; omega
  | succ f ih =>
    intro s acc h
    rw [allLoop]
    obtain ⟨h1, h2⟩ := read_ends rays s
    split
    · rename_i e; exact absurd e h1
    · exact .inr rfl
    · exact .inl rfl
    · rename_i T r e
      obtain ⟨i1, i2⟩ := h2 T r e
      rw [if_neg (by simpa using i1)]
      exact ih r _ (by omega)

/-- **C100, what fails.** The function for all triangulations never returns, whatever TOPCOM writes: it ends the program with status 1, or reads an index without a value or out of range. -/
theorem c100_all_violation (rays : List α) (s : List Char) : allTriangulations rays s = .exit ∨ allTriangulations rays s = .undefined :=
  allLoop_ends rays _ s [] (Nat.lt_succ_self _)

/-! ### Reading what TOPCOM writes -/

theorem printInt_head (i : ℕ) : ∃ c cs, printInt (i : ℤ) = c :: cs ∧ isDigit c = true := by
  have h : printInt (i : ℤ) = printNat i := by simp [printInt]
  cases hp : printNat i with
  | nil => exact absurd hp (printNat_ne_nil i)
  | cons c cs => exact ⟨c, cs, by rw [h, hp], printNat_digits i c (by rw [hp]; exact List.mem_cons_self)⟩

/-- The ray with an index. -/
abbrev Named (rays : List α) (i : ℕ) (a : α) : Prop := rays[i]? = some a

theorem rayLoop_one (rays : List α) (f : ℕ) (i : ℕ) (a : α) (acc : List α) (d : Char) (rest : List Char) (hi : i < 2 ^ 31) (ha : rays[i]? = some a) (hd : isDigit d = false) :
    rayLoop rays (f + 1) (printInt (i : ℤ) ++ d :: rest) acc = if d = ',' then rayLoop rays f rest (a :: acc) else rayLoop rays f (d :: rest) (a :: acc) := by
  obtain ⟨c, cs, hp, hc⟩ := printInt_head i
  have hr := readInt_print (i : ℤ) ⟨by have : (0 : ℤ) ≤ i := Int.natCast_nonneg i; linarith, by exact_mod_cast hi⟩ [] (d :: rest) (by simp) (fun x hx => by simp at hx; subst hx; exact hd)
  rw [List.nil_append] at hr
  have e : printInt (i : ℤ) ++ d :: rest = c :: (cs ++ d :: rest) := by rw [hp]; rfl
  rw [e] at hr ⊢
  conv_lhs => unfold rayLoop
  simp only [hr]
  rw [if_neg (isDigit_ne hc '}' (by decide)), if_pos (Int.natCast_nonneg i), Int.toNat_natCast, ha]

theorem rayLoop_simplex (rays : List α) (S : List ℕ) : ∀ (A : List α) (acc : List α) (f : ℕ) (rest : List Char), S.length < f → (∀ i ∈ S, i < 2 ^ 31) →
    List.Forall₂ (Named rays) S A →
    rayLoop rays f (commas (S.map fun i : ℕ => printInt (i : ℤ)) ++ '}' :: rest) acc = .stop (A.reverse ++ acc) ('}' :: rest) true := by
  induction S with
  | nil =>
    intro A acc f rest hf _ hA
    cases hA
    cases f with
    | zero => simp at hf
    | succ f => simp [commas, rayLoop]
  | cons i S ih =>
    intro A acc f rest hf hS hA
    cases hA with
    | cons ha hA =>
      rename_i a A
      cases f with
      | zero => simp at hf
      | succ f =>
        simp only [List.length_cons] at hf
        have hi := hS i List.mem_cons_self
        have step := ih A (a :: acc) f rest (by omega) (fun j hj => hS j (List.mem_cons_of_mem _ hj)) hA
        cases S with
        | nil =>
          cases hA
          simp only [List.map_cons, List.map_nil, commas] at step ⊢
          rw [rayLoop_one rays f i a acc '}' rest hi ha (by decide), if_neg (by decide)]
          simpa using step
        | cons j S =>
          simp only [List.map_cons, commas] at step ⊢
          rw [List.append_assoc, List.cons_append, rayLoop_one rays f i a acc ',' _ hi ha (by decide), if_pos rfl, step]
          simp

theorem simplices_one (rays : List α) (f : ℕ) (S : List ℕ) (A : List α) (acc : List (List α)) (d : Char) (rest : List Char) (hS : ∀ i ∈ S, i < 2 ^ 31)
    (hA : List.Forall₂ (Named rays) S A) : simplices rays (f + 1) (simplexText S ++ d :: rest) acc =
      if d = '}' then .ok (acc ++ [A.reverse]) rest else if d = ',' then simplices rays f rest (acc ++ [A.reverse]) else .exit := by
  have hlen : ∀ S : List ℕ, S.length ≤ (commas (S.map fun i : ℕ => printInt (i : ℤ))).length := fun S => by
    induction S with
    | nil => simp
    | cons i S ih =>
      cases S with
      | nil =>
        obtain ⟨c, cs, hp, -⟩ := printInt_head i
        simp [commas, hp]
      | cons j S =>
        simp only [List.map_cons, commas, List.length_append, List.length_cons] at ih ⊢
        omega
  have e : simplexText S ++ d :: rest = '{' :: (commas (S.map fun i : ℕ => printInt (i : ℤ)) ++ '}' :: (d :: rest)) := by simp [simplexText]
  rw [e, simplices]
  rw [if_pos rfl, rayLoop_simplex rays S A [] _ (d :: rest) (by have := hlen S; simp only [List.length_append, List.length_cons]; omega) hS hA]
  simp

theorem simplices_all (rays : List α) (T : List (List ℕ)) : ∀ (C : List (List α)) (acc : List (List α)) (f : ℕ) (rest : List Char), T ≠ [] → T.length ≤ f →
    (∀ S ∈ T, ∀ i ∈ S, i < 2 ^ 31) → List.Forall₂ (List.Forall₂ (Named rays)) T C →
    simplices rays f (commas (T.map simplexText) ++ '}' :: rest) acc = .ok (acc ++ C.map List.reverse) rest := by
  induction T with
  | nil => intro C acc f rest h; exact absurd rfl h
  | cons S T ih =>
    intro C acc f rest _ hf hT hC
    cases hC with
    | cons hA hC =>
      rename_i A C
      cases f with
      | zero => simp at hf
      | succ f =>
        simp only [List.length_cons] at hf
        have hS := hT S List.mem_cons_self
        cases T with
        | nil =>
          cases hC
          simp only [List.map_cons, List.map_nil, commas]
          rw [simplices_one rays f S A acc '}' rest hS hA, if_pos rfl]
        | cons S' T =>
          simp only [List.map_cons, commas]
          have step := ih C (acc ++ [A.reverse]) f rest (by simp) (by omega) (fun S hS => hT S (List.mem_cons_of_mem _ hS)) hC
          simp only [List.map_cons] at step
          rw [List.append_assoc, List.cons_append, simplices_one rays f S A acc ',' _ hS hA, if_neg (by decide), if_pos rfl, step]
          simp

/-- **C100.** A triangulation in TOPCOM's format, with at least one simplex and indices of rays, after any text without brace, is read as the cones with these rays (the last one first), in the same order; what
follows is left in the stream. -/
theorem c100_read (rays : List α) (label : List Char) (T : List (List ℕ)) (C : List (List α)) (rest : List Char) (hl : '{' ∉ label) (hT : T ≠ [])
    (hint : ∀ S ∈ T, ∀ i ∈ S, i < 2 ^ 31) (hC : List.Forall₂ (List.Forall₂ (Named rays)) T C) :
    readTriangulation rays (label ++ (triangulationText T ++ rest)) = .ok (C.map List.reverse) rest := by
  have hlen : ∀ T : List (List ℕ), T.length ≤ (commas (T.map simplexText)).length := fun T => by
    induction T with
    | nil => simp
    | cons S T ih =>
      cases T with
      | nil => simp [commas, simplexText]
      | cons S' T =>
        simp only [List.map_cons, commas, List.length_append, List.length_cons] at ih ⊢
        omega
  have e : label ++ (triangulationText T ++ rest) = label ++ '{' :: (commas (T.map simplexText) ++ '}' :: rest) := by simp [triangulationText]
  have hd : (label ++ '{' :: (commas (T.map simplexText) ++ '}' :: rest)).dropWhile (· ≠ '{') = '{' :: (commas (T.map simplexText) ++ '}' :: rest) := by
    have : ∀ l : List Char, '{' ∉ l → ∀ r, (l ++ '{' :: r).dropWhile (· ≠ '{') = '{' :: r := by
      intro l
      induction l with
      | nil => intro _ r; simp
      | cons c l ih =>
        intro hl r
        have hc : c ≠ '{' := fun e => hl (by rw [e]; exact List.mem_cons_self)
        rw [List.cons_append, List.dropWhile_cons_of_pos (by simpa using hc)]
        exact ih (fun h => hl (List.mem_cons_of_mem _ h)) r
    exact this label hl _
  rw [e, readTriangulation, hd]
  dsimp only
  rw [simplices_all rays T C [] _ rest hT (by have := hlen T; simp only [List.length_append, List.length_cons]; omega) hint hC]
  simp

/-- **C100, what fails.** If TOPCOM writes any number of triangulations of the cone, in its format, the function for all triangulations ends the program with status 1. -/
theorem c100_all_exit (rays : List α) (out : List (List Char × List (List ℕ))) (tail : List Char) (ht : '{' ∉ tail) (hl : ∀ p ∈ out, '{' ∉ p.1)
    (hT : ∀ p ∈ out, p.2 ≠ []) (hi : ∀ p ∈ out, ∀ S ∈ p.2, ∀ i ∈ S, i < 2 ^ 31 ∧ i < rays.length) :
    allTriangulations rays (outputText out tail) = .exit := by
  have main : ∀ (out : List (List Char × List (List ℕ))), (∀ p ∈ out, '{' ∉ p.1) → (∀ p ∈ out, p.2 ≠ []) →
      (∀ p ∈ out, ∀ S ∈ p.2, ∀ i ∈ S, i < 2 ^ 31 ∧ i < rays.length) → ∀ f acc, out.length < f → allLoop rays f (outputText out tail) acc = .exit := by
    intro out
    induction out with
    | nil =>
      intro _ _ _ f acc hf
      cases f with
      | zero => simp at hf
      | succ f =>
        have : tail.dropWhile (· ≠ '{') = [] := by
          rw [List.dropWhile_eq_nil_iff]
          exact fun c hc => by simpa using fun e : c = '{' => ht (e ▸ hc)
        rw [outputText, allLoop, readTriangulation, this]
    | cons p out ih =>
      intro hl hT hi f acc hf
      obtain ⟨label, T⟩ := p
      cases f with
      | zero => simp at hf
      | succ f =>
        have hC : ∃ C, List.Forall₂ (List.Forall₂ (Named rays)) T C := by
          have hi' := hi _ List.mem_cons_self
          dsimp only at hi'
          have one : ∀ S : List ℕ, (∀ i ∈ S, i < rays.length) → ∃ A, List.Forall₂ (Named rays) S A := fun S => by
            induction S with
            | nil => intro _; exact ⟨[], .nil⟩
            | cons i S ih =>
              intro h
              obtain ⟨A, hA⟩ := ih fun j hj => h j (List.mem_cons_of_mem _ hj)
              exact ⟨rays[i]'(h i List.mem_cons_self) :: A, .cons (List.getElem?_eq_getElem _) hA⟩
          clear ih hf hl hT hi
          induction T with
          | nil => exact ⟨[], .nil⟩
          | cons S T ih =>
            obtain ⟨A, hA⟩ := one S fun i h => (hi' S List.mem_cons_self i h).2
            obtain ⟨C, hC⟩ := ih fun S hS => hi' S (List.mem_cons_of_mem _ hS)
            exact ⟨A :: C, .cons hA hC⟩
        obtain ⟨C, hC⟩ := hC
        have hr := c100_read rays label T C (outputText out tail) (hl _ List.mem_cons_self) (hT _ List.mem_cons_self)
          (fun S hS i h => (hi _ List.mem_cons_self S hS i h).1) hC
        have hne := ((read_ends rays _).2 _ _ hr).1
        rw [outputText, allLoop, hr]
        dsimp only
        rw [if_neg (by simpa using hne)]
        simp only [List.length_cons] at hf
        exact ih (fun p hp => hl p (List.mem_cons_of_mem _ hp)) (fun p hp => hT p (List.mem_cons_of_mem _ hp)) (fun p hp => hi p (List.mem_cons_of_mem _ hp)) f _ (by omega)
  refine main out hl hT hi _ _ ?_
  have : ∀ out : List (List Char × List (List ℕ)), out.length ≤ (outputText out tail).length := fun out => by
    induction out with
    | nil => simp
    | cons p out ih => simp only [outputText, triangulationText, List.length_append, List.length_cons]; omega
  have := this out
  omega

/-- The square cone with its two simplices. -/
theorem square_read : readTriangulation ['a', 'b', 'c', 'd'] "T[1]:={{0,1,2},{1,2,3}};\n".toList = .ok [['c', 'b', 'a'], ['d', 'c', 'b']] ";\n".toList := by decide +kernel

end Verif.Topcom
