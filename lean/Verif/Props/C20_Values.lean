import Verif.Lemmas.Values
import Verif.Props.C21_C22_BirthDeath

/-!
# C20 — a parameter perturbation changes one entry per parameter and reports the prior ratio of the whole space
-/

namespace BB.Props

open BB Spec Lemmas

/-- C20: one index `i` is drawn; of each parameter the `i`-th value is changed by a normal variate times the
standard deviation at the `i`-th site, drawn in turn; nothing else changes. -/
theorem C20_one_entry (name : String) (priors : List Prior) (hnd : (priors.map (·.name)).Nodup) (s new : PSState)
    (lpr : PyF) (t t' : List Draw) (h : (PSFunc.values name priors).run s t = (.ok (new, lpr), t')) :
    ∃ d ds, t = d :: ds ++ t' ∧ 0 < s.n ∧ ds.length = priors.length ∧ new.n = s.n ∧ new.kd = s.kd ∧
      new.vals.map (·.1) = s.vals.map (·.1) ∧
      (∀ k, k ∉ priors.map (·.name) → new.get k = s.get k) ∧
      ∀ (m : ℕ) p dp, priors[m]? = some p → ds[m]? = some dp → ∃ xs x pos std,
        s.get p.name = some (.arr (.vec xs)) ∧ xs[d.n % s.n]? = some x ∧ posAt s (d.n % s.n) = .ok pos ∧
        p.std.get pos = .ok std ∧ new.get p.name = some (.arr (.vec (xs.set (d.n % s.n) (x + dp.z * std)))) := by
  obtain ⟨i, t1, h1, h2⟩ := M.bind_ok.1 h
  obtain ⟨⟨vals, lpr'⟩, t2, h3, h4⟩ := M.bind_ok.1 h2
  simp only at h4
  rw [pure_ok] at h4
  obtain ⟨h4, rfl⟩ := h4
  injection h4 with h4 h5
  subst h4 h5
  obtain ⟨cs, h6, h7, h8, _⟩ := perturbPriors_form priors [] _ _ _ _ (by simpa [dkeys] using hnd) h3
  simp only [List.nil_append] at h8
  have hlen := h6.length_eq
  obtain ⟨d, rfl, hn, rfl⟩ := randIdx_ok h1
  have hkeys : dkeys vals = priors.map (·.name) := by
    rw [h8]; exact changed_names h6
  have hnv : (dkeys vals).Nodup := by rw [hkeys]; exact hnd
  have hget : ∀ k, (PSState.mk s.n (dupdate s.vals vals) s.kd).get k = (dget vals k).or (s.get k) := fun k =>
    dget_dupdate _ _ hnv k
  refine ⟨d, cs.map (·.2.1), by rw [h7]; rfl, hn, by simp [hlen], rfl, rfl, ?_, fun k hk => ?_, fun m p dp hm hdp => ?_⟩
  · change (dupdate s.vals vals).map (·.1) = _
    have hin : ∀ kv ∈ vals, kv.1 ∈ dkeys s.vals := by
      intro kv hkv
      have : kv.1 ∈ priors.map (·.name) := by rw [← hkeys]; exact List.mem_map_of_mem hkv
      obtain ⟨p, hp, e⟩ := List.mem_map.1 this
      obtain ⟨m, hm, rfl⟩ := List.getElem_of_mem hp
      obtain ⟨xs, _, _, _, e1, _⟩ := (List.forall₂_iff_get.1 h6).2 m hm (by omega)
      rw [← e]
      by_contra hc
      rw [← dget_none_iff] at hc
      simp only [List.get_eq_getElem] at e1
      unfold PSState.get at e1
      rw [hc] at e1
      cases e1
    exact dkeys_dupdate hin
  · rw [hget, dget_none_iff.2 (by rw [hkeys]; exact hk)]
    rfl
  · obtain ⟨hm1, rfl⟩ := List.getElem?_eq_some_iff.1 hm
    rw [List.getElem?_map, Option.map_eq_some_iff] at hdp
    obtain ⟨c, hc, rfl⟩ := hdp
    obtain ⟨hm2, rfl⟩ := List.getElem?_eq_some_iff.1 hc
    obtain ⟨xs, x, pos, std, e1, e2, e3, e4, e5, _⟩ := (List.forall₂_iff_get.1 h6).2 m hm1 hm2
    simp only [List.get_eq_getElem] at e1 e2 e3 e4 e5
    refine ⟨xs, x, pos, std, e1, e2, e3, e4, ?_⟩
    have : dget vals priors[m].name = some (.arr (.vec (xs.set (d.n % s.n) (x + (cs[m]).2.1.z * std)))) := by
      refine dget_of_mem hnv ?_
      rw [h8, ← e5]
      exact List.mem_map_of_mem (List.getElem_mem _)
    rw [hget, this]
    rfl

/-- C20: if all values of the space are possible, the ratio reported is the change of the total log prior of the space:
the sum over all its parameters and all their values; minus infinity if the new state is impossible. -/
theorem C20_total_ratio (name : String) (priors : List Prior) (hnd : (priors.map (·.name)).Nodup)
    (hdisc : "discretization" ∉ priors.map (·.name)) (s new : PSState)
    (lpr : PyF) (t t' : List Draw) (h : (PSFunc.values name priors).run s t = (.ok (new, lpr), t'))
    (a : String → ℕ → ℝ) (b : String → ℕ → LogP) (ha : LogPriors priors s fun k j => some (a k j))
    (hb : LogPriors priors new b) :
    ∃ A, spaceTotal priors s.n (fun k j => some (a k j)) = some A ∧
      lpr = (change A (spaceTotal priors new.n b)).num := by
  obtain ⟨d, ds, h1, hn, h2, h3, _, _, h4, h5⟩ := C20_one_entry name priors hnd s new lpr t t' h
  obtain ⟨i, t1, g1, g2⟩ := M.bind_ok.1 h
  obtain ⟨⟨vals, lpr'⟩, t2, g3, g4⟩ := M.bind_ok.1 g2
  simp only at g4
  rw [pure_ok] at g4
  obtain ⟨g4, rfl⟩ := g4
  injection g4 with _ g5
  subst g5
  obtain ⟨cs, g6, g7, _, g8⟩ := perturbPriors_form priors [] _ _ _ _ (by simpa [dkeys] using hnd) g3
  simp only [zero_add'] at g8
  obtain ⟨d', e1, _, rfl⟩ := randIdx_ok g1
  rw [h1, List.cons_append, List.cons.injEq] at e1
  obtain ⟨rfl, e1⟩ := e1
  have hi : d.n % s.n < s.n := Nat.mod_lt _ hn
  have hds : ds = cs.map (·.2.1) := by
    rw [g7] at e1
    exact List.append_cancel_right e1
  have hsite : ∀ j pos, SiteAt new j pos → SiteAt s j pos := by
    intro j pos hp
    unfold SiteAt at *
    rw [h4 _ hdisc] at hp
    exact hp
  have hsite' : ∀ j pos pos', SiteAt s j pos → SiteAt s j pos' → pos = pos' := by
    intro j pos pos' h h'
    have := (siteAt_posAt h).symm.trans (siteAt_posAt h')
    injection this
  have hnum : ∀ v j x x', Num v j x → Num v j x' → x = x' := by
    rintro v j x x' ⟨xs, rfl, h⟩ ⟨ys, h', h''⟩
    injection h' with h'
    injection h' with h'
    injection h' with h'
    subst h'
    rw [h] at h''
    injection h''
  have hkeep : ∀ p ∈ priors, ∀ j < s.n, j ≠ d.n % s.n → b p.name j = some (a p.name j) := by
    intro p hp j hj hne
    obtain ⟨m, hm, rfl⟩ := List.getElem_of_mem hp
    obtain ⟨xs, x, pos, std, f1, _, _, _, f2⟩ := h5 m priors[m] ds[m] (List.getElem?_eq_getElem hm)
      (List.getElem?_eq_getElem (by omega))
    obtain ⟨x1, pos1, k1, k2, k3⟩ := ha _ hp j hj
    obtain ⟨x2, pos2, k4, k5, k6⟩ := hb _ hp j (by rw [h3]; exact hj)
    have hx : x2 = x1 := by
      refine hnum _ j _ _ ?_ k1
      obtain ⟨ys, k7, k8⟩ := k4
      rw [f2] at k7
      injection k7 with k7
      injection k7 with k7
      injection k7 with k7
      subst k7
      rw [List.getElem?_set_ne (Ne.symm hne)] at k8
      exact ⟨xs, f1, k8⟩
    rw [hx, hsite' _ _ _ (hsite _ _ k5) k2, k3] at k6
    injection k6 with k6
    cases hbj : b priors[m].name j with
    | none => rw [hbj] at k6; cases k6
    | some y =>
      rw [hbj] at k6
      injection k6 with k6
      rw [k6]
  obtain ⟨A, hA⟩ := spaceTotal_finite priors s.n a
  refine ⟨A, hA, ?_⟩
  have hsum : sumF (cs.map (·.2.2)) =
      (total (priors.map fun p => change (a p.name (d.n % s.n)) (b p.name (d.n % s.n)))).num := by
    refine sumF_changes (a := fun k => a k (d.n % s.n)) (b := fun k => b k (d.n % s.n))
      (List.forall₂_iff_get.2 ⟨by simp [g6.length_eq], fun m hm hm' => ?_⟩)
    simp only [List.get_eq_getElem, List.getElem_map]
    have hmc : m < cs.length := by simpa using hm'
    obtain ⟨xs, x, pos, std, f1, f2, f3, f4, f5, f6⟩ := (List.forall₂_iff_get.1 g6).2 m hm hmc
    simp only [List.get_eq_getElem] at f1 f2 f3 f4 f5 f6
    have hp : priors[m] ∈ priors := List.getElem_mem _
    obtain ⟨x1, pos1, k1, k2, k3⟩ := ha _ hp _ hi
    obtain ⟨x2, pos2, k4, k5, k6⟩ := hb _ hp _ (by rw [h3]; exact hi)
    have hx1 : x1 = x := hnum _ _ _ _ k1 ⟨xs, f1, f2⟩
    have hpos : pos1 = pos := by
      have := (siteAt_posAt k2).symm.trans f3
      injection this
    have hpos2 : pos2 = pos := (hsite' _ _ _ (hsite _ _ k5) k2).trans hpos
    subst hx1 hpos hpos2
    obtain ⟨y, l1, l2⟩ := f6 _ k3
    obtain ⟨xs', x', pos', std', q1, q2, q3, q4, q5⟩ := h5 m priors[m] (cs[m]).2.1 (List.getElem?_eq_getElem hm)
      (by rw [hds]; simp [hmc])
    have hxx : x' = x1 := hnum _ _ _ _ ⟨xs', q1, q2⟩ k1
    have hss : std' = std := by
      rw [f3] at q3
      injection q3 with q3
      rw [← q3, f4] at q4
      injection q4 with q4
      exact q4.symm
    have hx2 : x2 = x1 + (cs[m]).2.1.z * std := by
      refine hnum _ _ _ _ k4 ⟨_, q5, ?_⟩
      rw [List.getElem?_set_self (by
        rw [List.getElem?_eq_some_iff] at q2; exact q2.1), hxx, hss]
    rw [hx2, l1] at k6
    injection k6 with k6
    rw [l2, k6, sub_num]
  rw [g8, hsum, h3, spaceTotal_changed hi hkeep, hA]
  congr 1
  generalize total (priors.map fun p => change (a p.name (d.n % s.n)) (b p.name (d.n % s.n))) = o
  cases o <;> simp [total, change]

/-! ### Non-trivial instances -/

section Examples

/-- The change of the first of two values of one parameter. -/
theorem exTwo_values : (PSFunc.values "v" [exWide]).run exTwo [exD, ⟨0, -(1 / 2), 1 / 2, by norm_num⟩] =
    (.ok (.mk 2 [("discretization", .arr (.vec [1 / 4, 1 / 2])), ("a", .arr (.vec [1 / 2, 1 / 3]))] none, .fin 0), []) := by
  have h1 : M.randIdx exTwo.n [exD, ⟨0, -(1 / 2), 1 / 2, by norm_num⟩] = (.ok 0, [⟨0, -(1 / 2), 1 / 2, by norm_num⟩]) :=
    M.randIdx_run (by simp [exTwo, PSState.n]) _ _
  have h : Hyper.get (.line [0, 1] [1, 2]) (.one (1 / 4)) = .ok (5 / 4) := by
    have := C47_piecewise_linear [0, 1] [1, 2] rfl (by simp [StrictlyAscending]) (1 / 4 : ℝ) 0 (by simp)
      (by norm_num) (by norm_num)
    change Utils1d.interpLinear _ _ _ = _
    rw [this]
    norm_num [line]
  have h2 : exWide.perturbValue 1 (.one (1 / 4)) false [⟨0, -(1 / 2), 1 / 2, by norm_num⟩] = (.ok (1 / 2, .fin 0), []) := by
    refine (perturbValue_uniform (vmin := .const 0) (vmax := .line [0, 1] [1, 2]) rfl).2
      ⟨1, 0, 5 / 4, ⟨0, -(1 / 2), 1 / 2, by norm_num⟩, rfl, rfl, h, rfl, ?_, ?_⟩
    · norm_num
    · left; norm_num
  have h3 : posAt exTwo 0 = .ok (.one (1 / 4)) := by
    unfold posAt
    rw [exTwo_disc]
    rfl
  have h4 : numAt (some (.arr (.vec [1, 1 / 3]))) 0 = .ok 1 := rfl
  have h5 : exTwo.get "a" = some (.arr (.vec [1, 1 / 3])) := exTwo_a
  have h6 : exTwo.vals = [("discretization", .arr (.vec [1 / 4, 1 / 2])), ("a", .arr (.vec [1, 1 / 3]))] := rfl
  have hname : exWide.name = "a" := rfl
  have hne : ("discretization" : String) ≠ "a" := by decide +kernel
  simp only [PSFunc.run, M.bind_run, h1, perturbPriors, hname, h5, M.lift_run, h4, h3, h2, M.pure_run, dset, PyF.add,
    zero_add, h6, dupdate, List.foldl_cons, List.foldl_nil, if_neg hne, if_pos, List.set_cons_zero]
  rfl

/-- The log priors before and after. -/
theorem exTwo_logPrior {x p : ℝ} (hx : 0 ≤ x) (hx2 : x ≤ 1) (hp : 0 ≤ p) (hp2 : p ≤ 1) :
    exWide.logPrior x (.one p) = .ok (.fin (-Real.log (1 + p))) := by
  have h : Hyper.get (.line [0, 1] [1, 2]) (.one p) = .ok (1 + p) := by
    have := C47_piecewise_linear [0, 1] [1, 2] rfl (by simp [StrictlyAscending]) p 0 (by simp)
      (by simpa using hp) (by simpa using hp2)
    change Utils1d.interpLinear _ _ _ = _
    rw [this]
    norm_num [line]
  unfold Prior.logPrior
  have h0 : Hyper.get (.const 0) (.one p) = .ok 0 := rfl
  simp only [exWide, h, h0, bind, Except.bind, pure, Except.pure]
  rw [if_pos ⟨hx, by linarith⟩]
  have : (0 : ℝ) < 1 + p := by linarith
  simp [pyLog, this]

example : ∃ A, spaceTotal [exWide] 2 (fun _ j => some (if j = 0 then -Real.log (1 + 1 / 4) else -Real.log (1 + 1 / 2))) =
    some A ∧ PyF.fin 0 = (change A (spaceTotal [exWide] 2 fun _ j =>
      some (if j = 0 then -Real.log (1 + 1 / 4) else -Real.log (1 + 1 / 2)))).num := by
  have hd : (PSState.mk 2 [("discretization", .arr (.vec [1 / 4, 1 / 2])), ("a", .arr (.vec [1 / 2, 1 / 3]))] none).get
    "discretization" = some (.arr (.vec [1 / 4, 1 / 2])) := by simp [PSState.get, PSState.vals, dget]
  have ha : (PSState.mk 2 [("discretization", .arr (.vec [1 / 4, 1 / 2])), ("a", .arr (.vec [1 / 2, 1 / 3]))] none).get
    "a" = some (.arr (.vec [1 / 2, 1 / 3])) := by simp [PSState.get, PSState.vals, dget]
  have hdisc : ("discretization" : String) ∉ [exWide].map (·.name) := by
    have h : ("discretization" : String) ≠ "a" := by decide +kernel
    simpa [exWide] using h
  refine C20_total_ratio "v" [exWide] (by simp) hdisc exTwo _ _ _ _ exTwo_values
    (fun _ j => if j = 0 then -Real.log (1 + 1 / 4) else -Real.log (1 + 1 / 2)) _ ?_ ?_
  · intro p hp j hj
    rw [List.mem_singleton] at hp
    subst hp
    have hj2 : j < 2 := hj
    interval_cases j
    · exact ⟨1, .one (1 / 4), ⟨_, exTwo_a, rfl⟩, .inl ⟨_, _, exTwo_disc, rfl, rfl⟩,
        exTwo_logPrior (by norm_num) (by norm_num) (by norm_num) (by norm_num)⟩
    · exact ⟨1 / 3, .one (1 / 2), ⟨_, exTwo_a, rfl⟩, .inl ⟨_, _, exTwo_disc, rfl, rfl⟩,
        exTwo_logPrior (by norm_num) (by norm_num) (by norm_num) (by norm_num)⟩
  · intro p hp j hj
    rw [List.mem_singleton] at hp
    subst hp
    have hj2 : j < 2 := hj
    interval_cases j
    · exact ⟨1 / 2, .one (1 / 4), ⟨_, ha, rfl⟩, .inl ⟨_, _, hd, rfl, rfl⟩,
        exTwo_logPrior (by norm_num) (by norm_num) (by norm_num) (by norm_num)⟩
    · exact ⟨1 / 3, .one (1 / 2), ⟨_, ha, rfl⟩, .inl ⟨_, _, hd, rfl, rfl⟩,
        exTwo_logPrior (by norm_num) (by norm_num) (by norm_num) (by norm_num)⟩

end Examples

end BB.Props
