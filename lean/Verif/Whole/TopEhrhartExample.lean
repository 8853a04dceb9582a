import Verif.Whole.TopEhrhart
import Verif.Whole.VolumeExample

/-! # C95: what fails, and a case in which the hypotheses hold -/

namespace Verif.Whole

open Verif.Barvinok Verif.Barvinok.Spec Verif.Ti2 Verif.Brion Verif.Files Verif.Preprocess Verif.Valuation Latte.RatVec Verif.TopScript
open Verif.ExpSubst (Fail)
open Verif.Trie (Term insertAll emptySum drain begin' decompose)
open Verif.Trie.Text (loadMonomials)

variable {n d : ℕ}

theorem insertAll_zero (s : Verif.Trie.Sum ℚ) (xs : List (Term ℚ)) (h : ∀ x ∈ xs, x.coef = 0) : insertAll s xs = some s := by
  unfold insertAll
  induction xs with
  | nil => rfl
  | cons x xs ih =>
    rw [List.foldl_cons, Option.bind_some]
    unfold Verif.Trie.insertSum
    rw [if_pos (h x (by simp))]
    exact ih fun y hy => h y (by simp [hy])

theorem drain_none (fuel rounds n : ℕ) : drain (T := ℚ) fuel rounds (begin' none n) = none ∨ drain (T := ℚ) fuel rounds (begin' none n) = some [] := by
  cases rounds with
  | zero => exact Or.inl rfl
  | succ r =>
    cases fuel with
    | zero => exact Or.inl rfl
    | succ f => unfold drain Verif.Trie.nextTerm; simp [Verif.Trie.stepTerm, Verif.Trie.nextContainer, begin']

/-- **C95, defect.** The zero polynomial as weight: for no polytope a script is written, whatever the bounds are; the loop of `decompose` (PolyTrie.cpp:494–503) uses the first term, and there
is none. -/
theorem c95_zero_weight (T : Tools) (dual : ∀ d, GCone d → Except Fail (GCone d)) (hn : 0 < n) (xs : List (Term ℚ)) (hne : xs ≠ [])
    (hx : ∀ x ∈ xs, x.coef = 0 ∧ x.degree = -1 ∧ x.exps.length = n) (dir : List Char) (o : Options) (garbage : ℕ → ℤ) (fuel rounds hermite : ℕ) (file s : List Char) :
    topFile T dual fuel rounds garbage dir o hermite file (.monomials (monomialsText xs)) ≠ .result (.written s) := by
  have hload : loadMonomials garbage (firstLine (monomialsText xs)) = some (emptySum ℚ n) := by
    unfold monomialsText
    rw [firstLine_text _ printMono_newline xs hne]
    obtain ⟨text, h1, h2⟩ := Trie.Text.c25_parse_print n hn xs hne (fun t ht => (hx t ht).2.2) garbage
    rw [h1, Option.getD_some]
    unfold loadMonomials
    rw [h2]
    dsimp only
    refine insertAll_zero _ _ fun x hx' => ?_
    obtain ⟨p, hp, rfl⟩ := List.mem_map.1 hx'
    obtain ⟨t, ht, rfl⟩ := List.mem_map.1 hp
    exact (hx t ht).1
  have hdec : ∀ m, decompose fuel rounds m (emptySum ℚ n).trie = none := by
    intro m
    unfold decompose
    change (match drain fuel rounds (begin' none m) with
      | none => none
      | some [] => none
      | some (t :: ts) => Verif.Trie.decomposeLoop (t :: ts) ⟨0, m, none⟩) = _
    rcases drain_none fuel rounds m with h | h <;> rw [h]
  have key : ∀ (m : ℕ) (cones : List (GCone m)) tri, computeTopEhrhart (dual m) tri fuel rounds garbage dir o cones (.monomials (monomialsText xs)) ≠ .written s := by
    intro m cones tri
    unfold computeTopEhrhart
    split
    · simp
    · have : WeightFile.load garbage (.monomials (monomialsText xs)) = some (.polynomial (emptySum ℚ n)) := by
        change (loadMonomials garbage (firstLine (monomialsText xs))).map Weight.polynomial = _
        rw [hload]
        rfl
      rw [this]
      dsimp only
      unfold computeTop
      split
      · simp
      · split
        · simp
        · have : weightForms fuel rounds m (.polynomial (emptySum ℚ n)) = none := hdec m
          rw [this]
          simp
  unfold topFile
  split
  · simp
  · rename_i m l _
    cases m with
    | zero => simp [topRows]
    | succ m =>
      unfold topRows
      dsimp only
      split <;> try simp
      exact key _ _ _

/-- For the rectangle of C93 and the weight `x y` there are tools with which a script is written, and it describes the rectangle and the weight. -/
example : ∃ (T : Tools) (dual : ∀ d, GCone d → Except Fail (GCone d)), T.Ok ∧ ∃ N s, topFile T dual N N (fun _ => 0) "/usr/share".toList ⟨3, false, "-1".toList⟩ 0
    "2 3 \n3 -2 0 \n1 0 -1 \nnonnegative 2 1 2 \n".toList (.monomials (monomialsText [⟨1, [1, 1], -1⟩])) = .result (.written s) ∧
      Describes s ⟨3, false, "-1".toList⟩ boxP.Solutions (monomialsAt [⟨1, [1, 1], -1⟩]) := by
  obtain ⟨T, hT, -, htri⟩ := tools_satisfiable
  obtain ⟨alg, ha⟩ := raysOk_satisfiable
  have hx : PolyIn 2 [⟨1, [1, 1], -1⟩] := ⟨by decide, by decide, by decide⟩
  have hdu : ∀ d, Vrep.DualOk (n := d) (Ti2.dualizeCone alg) := fun d => Vrep.dualOk_4ti2 alg ha
  obtain ⟨N, hN⟩ := c95_total hT htri (fun _ => Ti2.dualizeCone alg) hdu (fun _ => dualSquare_4ti2 alg) (by decide) boxP box_ok box_small (by simp [boxP]) rfl box_bounded box_interior
    (.monomials (monomialsText [⟨1, [1, 1], -1⟩])) (Or.inr (Or.inl ⟨_, hx, rfl⟩))
  obtain ⟨M, hM⟩ := c95_monomials hT (fun _ => Ti2.dualizeCone alg) hdu (by decide) boxP box_ok box_small (by simp [boxP]) rfl box_bounded box_interior [⟨1, [1, 1], -1⟩] hx
  rw [← box_text]
  obtain ⟨s, hs⟩ := hN "/usr/share".toList ⟨3, false, "-1".toList⟩ (fun _ => 0) (max N M) (max N M) 0 (Or.inr (by decide)) (le_max_left _ _) (le_max_left _ _)
  exact ⟨T, _, hT, max N M, s, hs, hM _ _ _ _ _ _ _ (le_max_right _ _) (le_max_right _ _) hs⟩

end Verif.Whole
