import Verif.Hypersimplex.Kneser

/-!
# C99: edge polytopes

`code/latte/buildPolytopes/BuildGraphPolytope.cpp`.
-/

namespace Verif.Hypersimplex

open Verif.Graph

/-- Lines 32–35 (and 55–61): a zero vector with two entries set, one after the other; `addPoint` puts a one in front. -/
def edgePoint (n u v : ℕ) (a b : ℤ) : List ℤ := 1 :: ((List.replicate n 0).set u a).set v b

/-- `findEdgePolytope`, lines 23–38. -/
def findEdgePolytope (E : Edges) : List (List ℤ) :=
  (List.range E.length).flatMap fun k => (E.getD k []).map fun j => edgePoint E.length k j 1 1

/-- `findSymmetricEdgePolytope`, lines 46–64: the second point overwrites the entries of the first. -/
def findSymmetricEdgePolytope (E : Edges) : List (List ℤ) :=
  (List.range E.length).flatMap fun k => (E.getD k []).flatMap fun j => [edgePoint E.length k j 1 (-1), edgePoint E.length k j (-1) 1]

/-- The vector `a e_u + b e_v`, with a one in front. -/
def combination (n u v : ℕ) (a b : ℤ) : List ℤ := 1 :: List.ofFn fun s : Fin n => (if (s : ℕ) = u then a else 0) + if (s : ℕ) = v then b else 0

theorem edgePoint_eq (n : ℕ) {u v : ℕ} (h : u ≠ v) (a b : ℤ) : edgePoint n u v a b = combination n u v a b := by
  refine congrArg _ (List.ext_getElem (by simp) fun i h1 h2 => ?_)
  simp only [List.getElem_set, List.getElem_replicate, List.getElem_ofFn]
  by_cases hv : v = i
  · subst hv; simp [h.symm]
  · by_cases hu : u = i
    · subst hu; simp [hv, Ne.symm hv]
    · simp [hu, hv, Ne.symm hu, Ne.symm hv]

/-- The pairs listed. -/
def pairs (E : Edges) : List (ℕ × ℕ) := (List.range E.length).flatMap fun k => (E.getD k []).map fun j => (k, j)

theorem pairs_spec {n : ℕ} {E : Edges} (h : Simple n E) : (pairs E).Nodup ∧ ∀ u v, (u, v) ∈ pairs E ↔ Listed E u v := by
  constructor
  · rw [pairs, List.nodup_flatMap]
    refine ⟨fun i _ => (h.nodup i).map fun a b h => (Prod.ext_iff.1 h).2, List.nodup_range.imp fun {a b} hab => ?_⟩
    rw [Function.onFun, List.disjoint_left]
    intro x hx hy
    obtain ⟨j, -, rfl⟩ := List.mem_map.1 hx
    obtain ⟨j', -, e⟩ := List.mem_map.1 hy
    exact hab (Prod.ext_iff.1 e).1.symm
  · intro u v
    simp only [pairs, List.mem_flatMap, List.mem_range, List.mem_map, Prod.mk.injEq]
    constructor
    · rintro ⟨k, -, j, hj, rfl, rfl⟩; exact hj
    · intro hl
      exact ⟨u, by rw [h.length]; have := h.order u v hl; omega, v, hl, rfl, rfl⟩

theorem combination_injective {n : ℕ} {u v u' v' : ℕ} {a b a' b' : ℤ} (_ha : a ≠ 0) (_hb : b ≠ 0) (ha' : a' ≠ 0) (hb' : b' ≠ 0) (h1 : u < v) (h2 : v < n) (h1' : u' < v') (h2' : v' < n)
    (h : combination n u v a b = combination n u' v' a' b') : u = u' ∧ v = v' ∧ a = a' ∧ b = b' := by
  have hf : ∀ s, s < n → (((if s = u then a else 0) + if s = v then b else 0) = (if s = u' then a' else 0) + if s = v' then b' else 0) := fun s hs => by
    have := congrArg (fun l : List ℤ => l.tail.getD s 0) h
    simpa [combination, List.getD_eq_getElem?_getD, hs] using this
  have e1 := hf u (by omega)
  have e2 := hf v h2
  have e3 := hf u' (by omega)
  have e4 := hf v' h2'
  have huv : ¬ u = v := by omega
  have huv' : ¬ u' = v' := by omega
  have hvu : ¬ v = u := by omega
  have hvu' : ¬ v' = u' := by omega
  rw [if_pos rfl, if_neg huv] at e1
  rw [if_neg hvu, if_pos rfl] at e2
  rw [if_pos rfl, if_neg huv'] at e3
  rw [if_neg hvu', if_pos rfl] at e4
  by_cases c1 : u = u'
  · subst c1
    by_cases c2 : v = v'
    · subst c2
      rw [if_pos rfl, if_neg huv] at e1
      rw [if_neg hvu, if_pos rfl] at e2
      exact ⟨rfl, rfl, by linarith, by linarith⟩
    · rw [if_neg hvu, if_neg c2] at e2
      omega
  · by_cases c2 : u = v'
    · have : ¬ u' = v := by omega
      rw [if_neg (Ne.symm c1), if_neg this] at e3
      omega
    · rw [if_neg c1, if_neg c2] at e1
      omega

/-- **C99.** The points of the edge polytope of a simple graph are the `e_u + e_v` for the edges, each once. -/
theorem c99_edge {n : ℕ} {E : Edges} (h : Simple n E) : (findEdgePolytope E).Nodup ∧
    ∀ x, x ∈ findEdgePolytope E ↔ ∃ u v, Listed E u v ∧ x = combination n u v 1 1 := by
  obtain ⟨hn, hm⟩ := pairs_spec h
  have e : findEdgePolytope E = (pairs E).map fun p => edgePoint n p.1 p.2 1 1 := by
    rw [findEdgePolytope, pairs, List.map_flatMap, h.length]
    simp [Function.comp_def]
  have ord : ∀ p ∈ pairs E, p.1 < p.2 ∧ p.2 < n := fun p hp => h.order p.1 p.2 ((hm _ _).1 hp)
  rw [e]
  constructor
  · refine (List.nodup_map_iff_inj_on hn).2 fun p hp q hq hpq => ?_
    obtain ⟨o1, o2⟩ := ord p hp
    obtain ⟨o3, o4⟩ := ord q hq
    rw [edgePoint_eq _ o1.ne, edgePoint_eq _ o3.ne] at hpq
    obtain ⟨a, b, -⟩ := combination_injective (by decide) (by decide) (by decide) (by decide) o1 o2 o3 o4 hpq
    exact Prod.ext a b
  · intro x
    rw [List.mem_map]
    constructor
    · rintro ⟨p, hp, rfl⟩
      exact ⟨p.1, p.2, (hm _ _).1 hp, edgePoint_eq _ (ord p hp).1.ne _ _⟩
    · rintro ⟨u, v, hl, rfl⟩
      exact ⟨(u, v), (hm _ _).2 hl, edgePoint_eq _ (h.order u v hl).1.ne _ _⟩

/-- **C99.** The points of the symmetric edge polytope of a simple graph are the `e_u - e_v` and `e_v - e_u` for the edges, each once. -/
theorem c99_symmetric {n : ℕ} {E : Edges} (h : Simple n E) : (findSymmetricEdgePolytope E).Nodup ∧
    ∀ x, x ∈ findSymmetricEdgePolytope E ↔ ∃ u v, Listed E u v ∧ (x = combination n u v 1 (-1) ∨ x = combination n u v (-1) 1) := by
  obtain ⟨hn, hm⟩ := pairs_spec h
  have e : findSymmetricEdgePolytope E = (pairs E).flatMap fun p => [edgePoint n p.1 p.2 1 (-1), edgePoint n p.1 p.2 (-1) 1] := by
    rw [findSymmetricEdgePolytope, pairs, List.flatMap_assoc, h.length]
    simp [List.flatMap_map]
  have ord : ∀ p ∈ pairs E, p.1 < p.2 ∧ p.2 < n := fun p hp => h.order p.1 p.2 ((hm _ _).1 hp)
  rw [e]
  constructor
  · rw [List.nodup_flatMap]
    refine ⟨fun p hp => ?_, hn.imp_of_mem fun {p q} hp hq hpq => ?_⟩
    · obtain ⟨o1, o2⟩ := ord p hp
      rw [edgePoint_eq _ o1.ne, edgePoint_eq _ o1.ne, List.nodup_cons, List.mem_singleton]
      refine ⟨fun hpq => ?_, List.nodup_singleton _⟩
      have := (combination_injective (by decide) (by decide) (by decide) (by decide) o1 o2 o1 o2 hpq).2.2.1
      exact absurd this (by decide)
    · obtain ⟨o1, o2⟩ := ord p hp
      obtain ⟨o3, o4⟩ := ord q hq
      rw [Function.onFun, List.disjoint_left]
      intro x hx hy
      rw [edgePoint_eq _ o1.ne, edgePoint_eq _ o1.ne] at hx
      rw [edgePoint_eq _ o3.ne, edgePoint_eq _ o3.ne] at hy
      simp only [List.mem_cons, List.not_mem_nil, or_false] at hx hy
      apply hpq
      rcases hx with rfl | rfl <;> rcases hy with hy | hy <;>
      · obtain ⟨a, b, -⟩ := combination_injective (by decide) (by decide) (by decide) (by decide) o1 o2 o3 o4 hy
        exact Prod.ext a b
  · intro x
    rw [List.mem_flatMap]
    constructor
    · rintro ⟨p, hp, hx⟩
      have o := (ord p hp).1.ne
      rw [edgePoint_eq _ o, edgePoint_eq _ o] at hx
      simp only [List.mem_cons, List.not_mem_nil, or_false] at hx
      exact ⟨p.1, p.2, (hm _ _).1 hp, hx⟩
    · rintro ⟨u, v, hl, hx⟩
      have o := (h.order u v hl).1.ne
      refine ⟨(u, v), (hm _ _).2 hl, ?_⟩
      rw [edgePoint_eq _ o, edgePoint_eq _ o]
      simpa using hx

/-- The edge polytope of the path on three vertices. -/
theorem path_edges : Simple 3 [[1], [2], []] ∧ findEdgePolytope [[1], [2], []] = [[1, 1, 1, 0], [1, 0, 1, 1]] ∧
    findSymmetricEdgePolytope [[1], [2], []] = [[1, 1, -1, 0], [1, -1, 1, 0], [1, 0, 1, -1], [1, 0, -1, 1]] := by
  refine ⟨?_, by decide +kernel, by decide +kernel⟩
  have := (c60_linear 3 (by decide) []).1
  exact this

end Verif.Hypersimplex
