import Verif.Lemmas.ProgressMoves
import Verif.Lemmas.Choices
import Verif.Props.C16_C33_Noise

/-!
# No exceptions: the perturbations of an inversion and the starting state
-/

namespace BB.Lemmas

open BB BB.Spec

theorem _root_.BB.Spec.ProblemSafe.space {p : Problem} (h : ProblemSafe p) {sp : Space} (hs : Occurs p sp) : Safe sp := by
  obtain ⟨k, top, h1, h2⟩ := hs
  exact fun sp' h3 => ⟨h.ok.ok sp' ⟨k, top, h1, SubSpace.trans h2 h3⟩, h.safe sp' ⟨k, top, h1, SubSpace.trans h2 h3⟩⟩

theorem _root_.BB.Spec.ProblemSafe.good {p : Problem} (h : ProblemSafe p) :
    ∀ k sp, (k, sp) ∈ p.spaces → SGood vecVal sp := fun k sp hk => (h.space ⟨k, sp, hk, .refl⟩).good

theorem choices_runs {ws : List ℝ} (hw : ∀ w ∈ ws, 0 ≤ w) (hs : 0 < ws.sum) :
    Runs (choices ws.length ws) (fun i => ∃ w, ws[i]? = some w ∧ 0 < w) := by
  intro t
  cases t with
  | nil =>
    refine Or.inr ⟨[], ?_⟩
    have hne : ws ≠ [] := by rintro rfl; simp at hs
    unfold choices
    simp only [accumulate_length, ne_eq, not_true, if_false]
    rw [accumulate_getLast 0 ws hne]
    simp only [zero_add, not_le.2 hs, if_false]
    rfl
  | cons d t =>
    obtain ⟨i, h1, h2, h3, h4⟩ := choices_run ws hw hs d t
    refine Or.inl ⟨i, t, h1, ws[i], List.getElem?_eq_getElem h2, ?_⟩
    rw [List.sum_take_succ _ _ h2] at h4
    linarith

theorem ownFuncs_pos {sp : Space} : ∀ fw ∈ sp.ownFuncs, 0 < fw.2 := by
  intro fw hf
  unfold Space.ownFuncs at hf
  rw [List.mem_append, List.mem_append] at hf
  rcases hf with (hf | hf) | hf
  · split at hf
    · rcases List.mem_cons.1 hf with rfl | hf
      · exact one_pos
      · rw [List.mem_singleton] at hf
        subst hf
        exact one_pos
    · simp at hf
  · split at hf
    · simp at hf
    · rw [List.mem_singleton] at hf
      subst hf
      norm_num
  · split at hf
    · rw [List.mem_singleton] at hf
      subst hf
      exact one_pos
    · simp at hf

theorem own_nonneg {sp : Space} : ∀ w ∈ sp.ownPert.weights, 0 ≤ w := by
  intro w hw
  unfold Space.ownPert at hw
  simp only [List.mem_map] at hw
  obtain ⟨fw, h1, rfl⟩ := hw
  exact (ownFuncs_pos fw h1).le

theorem perturbPS_runs {sp : Space} (h : Safe sp) (hw : 0 < sp.ownPert.weights.sum) {s : PSState}
    (hs : SConf vecVal sp s) : Runs (sp.ownPert.perturbPS s) (fun _ => True) := by
  unfold PSPert.perturbPS
  have hlen : sp.ownPert.funcs.length = sp.ownPert.weights.length := by simp [Space.ownPert]
  rw [hlen]
  refine (choices_runs own_nonneg hw).bind' fun i hi => ?_
  obtain ⟨w, h1, _⟩ := hi
  have hi' := (List.getElem?_eq_some_iff.1 h1).1
  rw [← hlen] at hi'
  rw [List.getElem?_eq_getElem hi']
  exact (func_runs h hs (List.getElem_mem hi')).bind' fun _ _ => Runs.pure' trivial

/-- There is a state of every nested space. -/
theorem within_exists {sp sp' : Space} (h : SubSpace sp sp') : Safe sp → ∀ {s : PSState}, SConf vecVal sp s →
    sp = sp' ∨ ∃ path x, Within sp'.info.name s path x := by
  induction h with
  | refl => exact fun _ _ _ => Or.inl rfl
  | @step sp sp1 sp' k hk hsub ih =>
    intro hs s hc
    right
    obtain ⟨l, e1, e2, e3⟩ := conf_space hs hc hk
    have hn := conf_pos hs hc
    have hm := dget_some_mem e1
    have hx : l[0]? = some (l[0]'(by omega)) := List.getElem?_eq_getElem (by omega)
    by_cases hkn : k = sp'.info.name
    · subst hkn
      exact ⟨_, _, .here hm hx⟩
    · rcases ih (hs.sub hk) (e3 _ (List.mem_of_getElem? hx)) with rfl | ⟨path, x, hw⟩
      · exact absurd (hs.ok.key _ _ hk) hkn
      · exact ⟨_, _, .deeper hm hkn hx hw⟩

theorem instances_pos {p : Problem} (h : ProblemSafe p) {params : Params} (hp : PInv vecVal p params) {sp : Space}
    (hs : Occurs p sp) : 1 ≤ (instancesOf sp.info.name params).length := by
  obtain ⟨k, top, h1, h2⟩ := hs
  obtain ⟨s, e1, e2, _⟩ := hp.2.1 k top h1
  have hm := dget_some_mem e1
  have key : ∃ k' path x, Instance sp.info.name params k' path x := by
    by_cases hk : k = sp.info.name
    · subst hk
      exact ⟨_, _, _, .top hm⟩
    · rcases within_exists h2 (h.space ⟨k, top, h1, .refl⟩) e2 with rfl | ⟨path, x, hw⟩
      · exact absurd (h.ok.key _ _ h1) hk
      · exact ⟨_, _, _, .nested hm hk hw⟩
  obtain ⟨k', path, x, hi⟩ := key
  exact List.length_pos_of_mem (mem_instancesOf.2 (show Instance _ _ (QItem.mk k' path x).key _ _ from hi))

/-- The instances of a space are states of it. -/
theorem instance_conf {p : Problem} (h : ProblemSafe p) {params : Params} (hp : PInv vecVal p params) {sp : Space}
    (hs : Occurs p sp) {q : QItem} (hq : q ∈ instancesOf sp.info.name params) : SConf vecVal sp q.st := by
  have hinst := mem_instancesOf.1 hq
  obtain ⟨key, path, st⟩ := q
  simp only at hinst ⊢
  have hfind : ∀ k s, (k, TopVal.ps s) ∈ params → ∃ top, (k, top) ∈ p.spaces ∧ SConf vecVal top s := by
    intro k s hm
    have hd := dget_of_mem hp.1 hm
    obtain ⟨⟨k1, top⟩, htop, hk1⟩ := List.mem_map.1 (hp.2.2 _ _ hd)
    simp only at hk1
    subst hk1
    obtain ⟨s', e, hc, _⟩ := hp.2.1 _ _ htop
    rw [hd] at e
    injection e with e
    injection e with e
    subst e
    exact ⟨top, htop, hc⟩
  cases hinst with
  | top hm =>
    obtain ⟨top, htop, hc⟩ := hfind _ _ hm
    have : top = sp := h.ok.names _ _ ⟨_, top, htop, .refl⟩ hs (h.ok.key _ _ htop).symm
    exact this ▸ hc
  | @nested _ s0 _ _ hm hne hw =>
    obtain ⟨top, htop, hc⟩ := hfind _ _ hm
    obtain ⟨sp', hsub, hname, _, hx, _⟩ := within_conf hw (h.good _ _ htop) hc
    have : sp' = sp := h.ok.names _ _ ⟨_, top, htop, hsub⟩ hs hname
    exact this ▸ hx

mutual
theorem perts_sum : ∀ (sp : Space) (g : PSPert × ℝ), g ∈ sp.perts → g.2 = g.1.weights.sum
  | .mk info ps, g, h => by
    rw [Space.perts, List.mem_append] at h
    rcases h with h | h
    · exact perts_sum_L ps g h
    · rw [List.mem_singleton] at h
      subst h
      rfl
theorem perts_sum_L : ∀ (ps : ParamList) (g : PSPert × ℝ), g ∈ ps.perts → g.2 = g.1.weights.sum
  | .nil, g, h => by rw [ParamList.perts] at h; simp at h
  | .cons name p rest, g, h => by
    rw [ParamList.perts, List.mem_append] at h
    rcases h with h | h
    · exact perts_sum_P p g h
    · exact perts_sum_L rest g h
theorem perts_sum_P : ∀ (p : Param) (g : PSPert × ℝ), g ∈ p.perts → g.2 = g.1.weights.sum
  | .prior p, g, h => by rw [Param.perts] at h; simp at h
  | .space sp, g, h => by
    rw [Param.perts] at h
    exact perts_sum sp g h
end

/-- A perturbation of a space raises nothing, and records the move in the proposed state. -/
theorem perturb_runs {p : Problem} (h : ProblemSafe p) {g : PSPert × ℝ} (hg : g ∈ p.spaces.perts) (hw : 0 < g.2)
    {s : State} (hs : PInv vecVal p s.params) :
    Runs (g.1.perturb s) (fun r => (∃ st, dget r.1.cache "perturb_stats" = some (.stats st)) ∧ r.1.extra = []) := by
  unfold Spaces.perts at hg
  obtain ⟨⟨k0, top0⟩, htop0, hgm⟩ := List.mem_flatMap.1 hg
  obtain ⟨sp', hsub, he⟩ := perts_S _ _ hgm
  have hsum := perts_sum _ _ hgm
  have hocc : Occurs p sp' := ⟨k0, top0, htop0, hsub⟩
  rw [hsum] at hw
  rw [he] at hw ⊢
  rw [perturb_eq _ _ (hs.wf h.good)]
  refine (Runs.randIdx' (instances_pos h hs hocc)).bind' fun i hi => ?_
  change Runs (match (instancesOf sp'.info.name s.params)[i]? with
    | none => M.throw .indexError
    | some q => sp'.ownPert.perturbPS q.st >>= fun r => pure (proposed s q r, r.2.1)) _
  rw [List.getElem?_eq_getElem hi]
  refine (perturbPS_runs (h.space hocc) hw (instance_conf h hs hocc (List.getElem_mem hi))).bind' fun r _ =>
    Runs.pure' ⟨⟨[(r.2.2, 1)], ?_⟩, rfl⟩
  unfold proposed
  simp only [dget, if_true]

theorem redraw_runs (vmin vmax std old : ℝ) : Runs (redraw vmin vmax std old) (fun _ => True) := by
  unfold redraw
  exact Runs.until' (Runs.normal'.bind' fun _ _ => Runs.pure' fun _ _ => trivial)

theorem perturbNoises_runs {params : Params} : ∀ (ts : List Target) (acc : List (String × TopVal)),
    (∀ tg ∈ ts, NoiseWithin tg params) → Runs (perturbNoises params ts acc) (fun _ => True)
  | [], acc, _ => by
    rw [perturbNoises]
    exact Runs.pure' trivial
  | tg :: ts, acc, h => by
    rw [perturbNoises]
    obtain ⟨d, h1, _, _, h2⟩ := h tg (List.mem_cons_self ..)
    refine (Runs.lift' (P := fun d' => d' = d) ⟨d, ?_, rfl⟩).bind' fun d' hd => ?_
    · unfold getNoise
      rw [h1]
    · subst hd
      refine Runs.bind' (Q := fun _ => True) ?_ fun _ _ => perturbNoises_runs ts _ fun tg' h' => h tg' (List.mem_cons_of_mem _ h')
      unfold Target.perturbNoise
      refine (redraw_runs _ _ _ _).bind' fun _ _ => ?_
      split
      · rename_i hc
        rw [if_pos hc] at h2
        obtain ⟨r, h3, _⟩ := h2
        rw [h3]
        exact (redraw_runs _ _ _ _).bind' fun _ _ => Runs.pure' trivial
      · exact Runs.pure' trivial

theorem noisePerturb_runs {ts : List Target} {s : State} (h : ∀ tg ∈ ts, NoiseWithin tg s.params) :
    Runs (noisePerturb ts s) (fun r => r.1.extra = []) := by
  unfold noisePerturb
  exact (perturbNoises_runs ts [] h).bind' fun _ _ => Runs.pure' rfl

theorem initValues_runs : ∀ (l : Spaces), (∀ k sp, (k, sp) ∈ l → Safe sp) → Runs (Spaces.initValues l) (fun _ => True)
  | [], _ => Runs.pure' trivial
  | (k, sp) :: l, h => by
    rw [Spaces.initValues]
    exact (init_runs_S sp (h k sp (List.mem_cons_self ..))).bind' fun _ _ =>
      (initValues_runs l fun k' sp' h' => h k' sp' (List.mem_cons_of_mem _ h')).bind' fun _ _ => Runs.pure' trivial

theorem initTargets_runs : ∀ (ts : List Target) (s : State), Runs (initTargets ts s) (fun _ => True)
  | [], s => Runs.pure' trivial
  | t :: ts, s => by
    rw [initTargets]
    refine Runs.bind' (Q := fun _ => True) ?_ fun s' _ => initTargets_runs ts s'
    unfold Target.initialize
    exact Runs.ite' (fun _ => Runs.uniform'.bind' fun _ _ => Runs.ite' (fun _ => Runs.uniform'.bind' fun _ _ => Runs.pure' trivial)
      fun _ => Runs.pure' trivial) fun _ => Runs.pure' trivial

theorem start_runs {p : Problem} (h : ProblemSafe p) : Runs p.start (fun _ => True) := by
  unfold Problem.start Spaces.initialize
  refine Runs.bind' (Q := fun _ => True) ?_ fun s _ => initTargets_runs p.targets s
  exact (initValues_runs p.spaces fun k sp hk => h.space ⟨k, sp, hk, .refl⟩).bind' fun _ _ => Runs.pure' trivial

end BB.Lemmas
