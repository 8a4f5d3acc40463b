import Verif.Lemmas.Groups
import Verif.Props.C21_C22_BirthDeath

/-!
# C56 — the perturbations match the parameterization
-/

namespace BB.Props

open BB Spec Lemmas

/-- **C56**, for all spaces: the perturbations of a parameterization are one group for each (nested) space, in the
order of the enumeration, with birth and death just for a changing number of dimensions, a move of a site just for
discretizations, a perturbation of values just for those with parameters that are not spaces; the weight of the group is the
sum of the weights of its members.

What is missing: a space with nothing to perturb has a group, too (`C56_empty_group`); see `C56_positive` for the spaces
with something to perturb. -/
theorem C56_groups_partial (ps : Spaces) :
    List.Forall₂ (fun s g => IsGroup s g.1 g.2) (ps.flatMap fun kv => spacesOf kv.2) ps.perts ∧
      ∀ s, s ∈ (ps.flatMap fun kv => spacesOf kv.2) ↔ ∃ k top, (k, top) ∈ ps ∧ SubSpace top s := by
  constructor
  · induction ps with
    | nil => exact .nil
    | cons kv ps ih => exact List.rel_append (perts_space kv.2) ih
  · intro s
    simp only [List.mem_flatMap, mem_spacesOf, Prod.exists]

open Classical in
/-- **C56**: the groups that can be chosen, those of positive weight, are one for each (nested) space that has something
to perturb. -/
theorem C56_positive (ps : Spaces) :
    List.Forall₂ (fun s g => IsGroup s g.1 g.2)
      ((ps.flatMap fun kv => spacesOf kv.2).filter (fun s => decide (Perturbable s)))
      (ps.perts.filter (fun g => decide (0 < g.2))) := by
  have h := forall₂_filter (R := fun (s : Space) (g : PSPert × ℝ) => IsGroup s g.1 g.2) (p := Perturbable)
    (q := fun g => 0 < g.2) (fun _ _ h => (group_pos h).symm) (C56_groups_partial ps).1
  convert h

/-- **C56**, of an inversion: as many weights as perturbations; the weights are those of the groups, and `1` for the
perturbation of the noise, which is there just if the noise of some target is unknown. -/
theorem C56_inversion (p : Problem) :
    p.perturbs.length = p.weights.length ∧
      (∀ i (h : i < p.spaces.perts.length), p.weights[i]? = some (p.spaces.perts[i]).2 ∧
        ∃ name, p.perturbs[i]? = some (name, (p.spaces.perts[i]).1.perturb)) ∧
      (p.hier = [] → p.perturbs.length = p.spaces.perts.length) ∧
      (p.hier ≠ [] → p.perturbs.length = p.spaces.perts.length + 1 ∧
        p.weights[p.spaces.perts.length]? = some 1 ∧
        ∃ name, p.perturbs[p.spaces.perts.length]? = some (name, noisePerturb p.hier)) := by
  unfold Problem.perturbs Problem.weights Problem.noisePerturbs
  refine ⟨?_, fun i h => ⟨?_, ?_⟩, fun h => ?_, fun h => ⟨?_, ?_, ?_⟩⟩
  · split <;> simp
  · rw [List.getElem?_append_left (by simpa using h)]
    simp [h]
  · refine ⟨(p.spaces.perts[i]).1.displayName, ?_⟩
    rw [List.getElem?_append_left (by simpa using h)]
    simp [h]
  · simp [h]
  all_goals rw [if_neg (by simpa using h)]
  · simp
  · rw [List.getElem?_append_right (by simp)]; simp
  · refine ⟨noiseName p.hier, ?_⟩
    rw [List.getElem?_append_right (by simp)]; simp

/-- A space of a fixed number of dimensions with nothing but a space in it. -/
noncomputable def exBare : Space :=
  .mk { name := "bare", nDim := some 1, nMin := 1, nMax := 1, initRange := 0, kind := .plain, fromPrior := true }
    (.cons "w" (.space exInner) .nil)

/-- **C56** as stated does not hold: a space with nothing to perturb has a group with no functions and weight zero. -/
theorem C56_empty_group :
    ¬ Perturbable exBare ∧ ∃ g ∈ Spaces.perts [("bare", exBare)], g.1.name = "bare" ∧ g.1.funcs = [] ∧ g.2 = 0 := by
  constructor
  · simp [Perturbable, exBare, priorsOf, Space.info, Space.params, ParamList.toList]
  · refine ⟨(exBare.ownPert, exBare.ownPert.weights.sum), ?_, rfl, ?_, ?_⟩
    · simp [Spaces.perts, exBare, Space.perts]
    all_goals simp [Space.ownPert, Space.ownFuncs, exBare, Info.transD, Kind.isDisc, Space.info, Space.params,
      ParamList.priors]

/-- Both groups of the nested tessellations, with birth, death, values and sites. -/
example : Spaces.perts [("v", exOuter)] =
    [(⟨"w", [.birth exInner, .death exInner, .values "w" [exUnit], .site exInner], [1, 1, 3, 1]⟩, 6),
      (⟨"v", [.birth exOuter, .death exOuter, .values "v" [exWide], .site exOuter], [1, 1, 3, 1]⟩, 6)] := by
  have h1 : Space.perts exInner =
      [(⟨"w", [.birth exInner, .death exInner, .values "w" [exUnit], .site exInner], [1, 1, 3, 1]⟩, 6)] := by
    have : exInner.ownPert =
        ⟨"w", [.birth exInner, .death exInner, .values "w" [exUnit], .site exInner], [1, 1, 3, 1]⟩ := by
      simp [Space.ownPert, Space.ownFuncs, exInner, Info.transD, Kind.isDisc, Space.info, Space.params,
        ParamList.priors]
    rw [show exInner.perts = [(exInner.ownPert, exInner.ownPert.weights.sum)] from by
      simp [exInner, Space.perts, ParamList.perts, Param.perts], this]
    norm_num
  have : exOuter.ownPert =
      ⟨"v", [.birth exOuter, .death exOuter, .values "v" [exWide], .site exOuter], [1, 1, 3, 1]⟩ := by
    simp [Space.ownPert, Space.ownFuncs, exOuter, Info.transD, Kind.isDisc, Space.info, Space.params,
      ParamList.priors]
  rw [show Spaces.perts [("v", exOuter)] = exInner.perts ++ [(exOuter.ownPert, exOuter.ownPert.weights.sum)] from by
    simp [Spaces.perts, exOuter, Space.perts, ParamList.perts, Param.perts], this, h1]
  norm_num

/-- With the group of nothing left out, the group of the space within is the only one. -/
example := C56_positive [("bare", exBare)]

end BB.Props
