import Verif.Hilbert.Props

/-!
# C101: runs for several cones

With `--subcones`, or a file of cones as input, the program handles a list of cones; several runs can share the work.
-/

namespace Verif.Hilbert

open Verif.Barvinok (Vec Mat)

variable {m : ℕ}

/-- `normalize_main` with a producer of several cones, lines 698–707 and 721–724, 758–764, 811–815: each cone is triangulated first (with `--subcones` and without `--no-initial-triangulation`) or handled as it is. -/
def runCones (X : Smith.Xgcd) (T : Tools m) (P : Params) (f : ℕ) (cones : List (List (Vec (m + 1)))) : Out (St m) :=
  handleList (fun c s => if P.initialTriangulation then handleList (handle X T P f) (T.triangulate s.calls c) { s with calls := s.calls + 1 } else handle X T P f c s) cones ⟨[], [], 0⟩

theorem runCones_one (X : Smith.Xgcd) (T : Tools m) (P : Params) (f : ℕ) (rays : List (Vec (m + 1))) : runCones X T P f [rays] = run X T P f rays := by
  unfold runCones run
  simp only [handleList, Nat.zero_add]
  generalize (if P.initialTriangulation = true then _ else _ : Out (St m)) = o
  cases o <;> rfl

theorem runCones_step (X : Smith.Xgcd) {T : Tools m} (hT : Contract T) (P : Params) (hP : P.maxDeterminant ≤ 2 ^ 31) (f : ℕ) (rays : List (Vec (m + 1))) (cones : List (List (Vec (m + 1))))
    (hc : ∀ c ∈ cones, ∀ r ∈ c, r ∈ rays) (s : St m) (h : runCones X T P f cones = .ok s) :
    s.file.Nodup ∧ (∀ x ∈ s.file, InCone rays x) ∧ ∀ c ∈ cones, ∀ p, InCone c p → SumOf ({r | r ∈ rays} ∪ {v | v ∈ s.file}) p := by
  have one : ∀ (c : List (Vec (m + 1))) (t t' : St m), Inv t → (if P.initialTriangulation then handleList (handle X T P f) (T.triangulate t.calls c) { t with calls := t.calls + 1 } else handle X T P f c t) = .ok t' →
      Step c t t' := by
    intro c t t' ht e
    split at e
    · obtain ⟨k1, k2, k3, k4⟩ := handleList_step _ (handle_step X hT P hP f) c _ { t with calls := t.calls + 1 } t' ⟨ht.1, ht.2⟩ (hT.triangulate_rays _ _) e
      refine ⟨k1, k2, k3, fun p hp => ?_⟩
      obtain ⟨c', hc', hpc⟩ := hT.triangulate_cover t.calls c p hp
      exact k4 c' hc' p hpc
    · exact handle_step X hT P hP f c t t' ht e
  obtain ⟨h1, -, h3, h4⟩ := handleList_step _ one rays cones ⟨[], [], 0⟩ s ⟨fun v => by simp, List.nodup_nil⟩ hc h
  exact ⟨h1.nodup, fun x hx => (h3 x hx).resolve_left (by simp), h4⟩

/-- One run of the program: what it is given, and the file written. -/
structure Job (m : ℕ) where
  tools : Tools m
  params : Params
  cones : List (List (Vec (m + 1)))
  rounds : ℕ
  result : St m

/-- **C101, shared work.** If the cones of several runs (with any options and any results of the external parts) have rays of a cone, and cover its lattice points, then every lattice point of the cone is a sum of
its rays and vectors of the files, every element of its Hilbert basis is one of these, and the files list lattice points of the cone. -/
theorem c101_shared (X : Smith.Xgcd) (rays : List (Vec (m + 1))) (jobs : List (Job m)) (hT : ∀ j ∈ jobs, Contract j.tools) (hP : ∀ j ∈ jobs, j.params.maxDeterminant ≤ 2 ^ 31)
    (hc : ∀ j ∈ jobs, ∀ c ∈ j.cones, ∀ r ∈ c, r ∈ rays) (hrun : ∀ j ∈ jobs, runCones X j.tools j.params j.rounds j.cones = .ok j.result)
    (hcover : ∀ p, InCone rays p → ∃ j ∈ jobs, ∃ c ∈ j.cones, InCone c p) :
    (∀ j ∈ jobs, j.result.file.Nodup ∧ ∀ x ∈ j.result.file, InCone rays x) ∧
      (∀ p, InCone rays p → SumOf ({r | r ∈ rays} ∪ {v | ∃ j ∈ jobs, v ∈ j.result.file}) p) ∧
      ∀ p, Irreducible rays p → (∃ j ∈ jobs, p ∈ j.result.file) ∨ p ∈ rays := by
  have st := fun j hj => runCones_step X (hT j hj) j.params (hP j hj) j.rounds rays j.cones (hc j hj) j.result (hrun j hj)
  have gen : ∀ p, InCone rays p → SumOf ({r | r ∈ rays} ∪ {v | ∃ j ∈ jobs, v ∈ j.result.file}) p := fun p hp => by
    obtain ⟨j, hj, c, hcj, hpc⟩ := hcover p hp
    exact sumOf_mono (Set.union_subset_union le_rfl fun v hv => by rw [Set.mem_ofPred_eq]; exact ⟨j, hj, hv⟩) ((st j hj).2.2 c hcj p hpc)
  refine ⟨fun j hj => ⟨(st j hj).1, (st j hj).2.1⟩, gen, fun p hp => ?_⟩
  have := irreducible_mem (S := {r | r ∈ rays} ∪ {v | ∃ j ∈ jobs, v ∈ j.result.file})
    (fun x hx => by
      rcases hx with hx | hx
      · exact ray_inCone hx
      · obtain ⟨j, hj, g⟩ := hx; exact (st j hj).2.1 x g) hp (gen p hp.1)
  exact this.symm

end Verif.Hilbert
