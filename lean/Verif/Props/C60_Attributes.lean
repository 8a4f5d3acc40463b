import Verif.Lemmas.HeapHistory
import Verif.Lemmas.HeapValues
import Verif.Props.C16_C33_Noise
import Verif.Props.C20_Values
import Verif.Props.C58_Copy

/-!
# C60: attributes and items

The model with objects and references is `Verif/Model/Heap.lean`.  `state.name` and `state["name"]` do not always agree:
`ParamPerturbation` and `NoisePerturbation` change the dictionary of the copy they make with `dict.update`, which leaves
the attributes as they were (`C60_values_stale`, `C60_noise_stale`, `C60_values_not`, `C60_noise_not`).  They agree for
all parameters that are never perturbed like this (`C60_history_partial`).
-/

namespace BB.Props

open BB BB.Spec BB.Lemmas BB.HM

/-- C60, as far as it is true: in a run with the perturbation functions `ps`, whatever happens, the attributes and the
items of all parameter-space states are the same objects for all parameters whose values no `ParamPerturbation` of `ps`
perturbs; those of all states, for all names except the targets of a `NoisePerturbation` of `ps`. -/
theorem C60_history_partial (ps : List Proposer) {h : Heap} (hh : History ps [] h) :
    (∀ (a : Addr) n vals attrs kd, h[a]? = some (.ps n vals attrs kd) → (dkeys vals).Nodup →
      ∀ k ∉ valueNames ps, dget attrs k = dget vals k) ∧
    ∀ (a : Addr) vals attrs temp cache extra, h[a]? = some (.state vals attrs temp cache extra) →
      (dkeys vals).Nodup → ∀ k ∉ noiseNames ps, dget attrs k = dget vals k := by
  have := history_agree hh (fun a o ho => by simp at ho)
  exact ⟨fun a n vals attrs kd ho => this a _ ho, fun a vals attrs temp cache extra ho => this a _ ho⟩

/-- C60: without such functions – births, deaths and moves of the sites only – they always agree. -/
theorem C60_sites (ps : List Proposer) (hg : ∀ g, Proposer.space g ∈ ps → ∀ nm priors, PSFunc.values nm priors ∉ g.funcs)
    (hn : ∀ ts, Proposer.noise ts ∉ ps) {h : Heap} (hh : History ps [] h) :
    (∀ (a : Addr) n vals attrs kd, h[a]? = some (.ps n vals attrs kd) → (dkeys vals).Nodup →
      ∀ k, dget attrs k = dget vals k) ∧
    ∀ (a : Addr) vals attrs temp cache extra, h[a]? = some (.state vals attrs temp cache extra) →
      (dkeys vals).Nodup → ∀ k, dget attrs k = dget vals k := by
  obtain ⟨h1, h2⟩ := C60_history_partial ps hh
  refine ⟨fun a n vals attrs kd ho hk k => h1 a n vals attrs kd ho hk k ?_,
    fun a vals attrs temp cache extra ho hk k => h2 a vals attrs temp cache extra ho hk k ?_⟩
  · rintro ⟨g, nm, priors, hm, hf, _⟩
    exact hg g hm nm priors hf
  · rintro ⟨ts, hm, _⟩
    exact hn ts hm

/-- C60: `ps_state.set_param_values` sets both. -/
theorem C60_set (h h' : Heap) (a b : Addr) (k : String) (t t' : List Draw) (u : Unit)
    (hr : setValH a k b h t = (.ok u, h', t')) : ∃ n vals attrs kd, h'[a]? = some (.ps n vals attrs kd) ∧
      dget vals k = some b ∧ dget attrs k = some b := by
  rw [setValH, Act.bind_run] at hr
  rcases hc : checkH none b h t with ⟨r, h₁, t₁⟩
  rw [hc] at hr
  cases r with
  | error e => cases hr
  | ok u' =>
    simp only at hr
    rw [readPS, bind_assoc', Act.bind_run] at hr
    cases ho : h₁[a]? with
    | none => simp only [HM.read, ho] at hr; cases hr
    | some o =>
      simp only [HM.read, ho] at hr
      cases o with
      | ps n vals attrs kd =>
        have he : h' = h₁.set a (.ps n (dset vals k b) (dset attrs k b) kd) := by
          have := congrArg (fun x => x.2.1) hr
          exact this.symm
        subst he
        exact ⟨n, _, _, kd, set_self ho, dget_dset_same .., dget_dset_same ..⟩
      | _ => cases hr

/-- C60: so does `state.set_param_values`. -/
theorem C60_set_state (h h' : Heap) (a : Addr) (v : TRef) (k : String) (t t' : List Draw) (u : Unit)
    (hr : setTopH a k v h t = (.ok u, h', t')) : ∃ vals attrs temp cache extra,
      h'[a]? = some (.state vals attrs temp cache extra) ∧ dget vals k = some v ∧ dget attrs k = some v := by
  rw [setTopH, readState, bind_assoc', Act.bind_run] at hr
  cases ho : h[a]? with
  | none => simp only [HM.read, ho] at hr; cases hr
  | some o =>
    simp only [HM.read, ho] at hr
    cases o with
    | state vals attrs temp cache extra =>
      have he : h' = h.set a (.state (dset vals k v) (dset attrs k v) temp cache extra) := by
        have := congrArg (fun x => x.2.1) hr
        exact this.symm
      subst he
      exact ⟨_, _, temp, cache, extra, set_self ho, dget_dset_same .., dget_dset_same ..⟩
    | _ => cases hr

/-- After `ParamPerturbation` the items have the new values, all attributes have the values from *before*. -/
theorem C60_values_stale {h h' : Heap} {s : PSState} {a b : Addr} {fuel : ℕ} (nm : String) (priors : List Prior)
    (hr : RepPS h s a) (hv : ValidPS s) (hd : depthPS s ≤ fuel) (hk : (dkeys s.vals).Nodup) (lpr : PyF)
    (t t' : List Draw) (hrun : (PSFunc.values nm priors).runH fuel a h t = (.ok (b, lpr), h', t')) :
    ∃ new n vals attrs kd, (PSFunc.values nm priors).run s t = (.ok (new, lpr), t') ∧
      h'[b]? = some (.ps n vals attrs kd) ∧ RepVals h' new.vals vals ∧ RepVals h' s.vals attrs := by
  obtain ⟨⟨new, lpr'⟩, hp, _, h1, h2, n, vals, attrs, kd, ho, h3⟩ := (valuesH_sim nm priors hr hv hd).ok' hrun
  simp only at h1 h2 ho
  subst h1
  obtain ⟨n', vals', kd'⟩ := new
  rw [RepPS] at h2
  obtain ⟨vs, attrs', kd'', ho', h4⟩ := h2
  rw [ho] at ho'; cases ho'
  refine ⟨_, _, vals, attrs, kd, hp, ho, h4, ?_⟩
  rwa [attrsOf_nodup hk] at h3

/-- After `NoisePerturbation` the items have the new values, all attributes have the values from *before*. -/
theorem C60_noise_stale {h h' : Heap} {s : State} {a b : Addr} {fuel : ℕ} (ts : List Target)
    (hr : RepState h s a) (hv : ValidTop s.params) (hd : depthTop s.params ≤ fuel) (hk : (dkeys s.params).Nodup)
    (lpr : PyF) (t t' : List Draw) (hrun : noisePerturbH fuel ts a h t = (.ok (b, lpr), h', t')) :
    ∃ new vals attrs temp cache extra, noisePerturb ts s t = (.ok (new, lpr), t') ∧
      h'[b]? = some (.state vals attrs temp cache extra) ∧ RepTop h' new.params vals ∧ RepTop h' s.params attrs := by
  obtain ⟨⟨new, lpr'⟩, hp, _, h1, h2, vals, attrs, temp, cache, extra, ho, h3⟩ := (noisePerturbH_sim ts hr hv hd).ok' hrun
  simp only at h1 h2 ho
  subst h1
  obtain ⟨vs, attrs', ho', h4⟩ := h2
  rw [ho] at ho'; cases ho'
  refine ⟨_, vals, attrs, _, _, _, hp, ho, h4, ?_⟩
  rwa [attrsOf_nodup hk] at h3

/-! ### disagreement -/

/-- A parameter-space state with sites and one parameter. -/
noncomputable def heap60 : Heap :=
  [.arr (.vec [1 / 4, 1 / 2]), .arr (.vec [1, 1 / 3]),
   .ps 2 [("discretization", 0), ("a", 1)] [("discretization", 0), ("a", 1)] none]

theorem rep60 : RepPS heap60 exTwo 2 := by
  simp only [exTwo, RepPS, RepVals, RepVal]
  exact ⟨_, _, _, rfl, 0, _, rfl, rfl, 1, _, rfl, rfl, rfl⟩

theorem valid60 : ValidPS exTwo ∧ depthPS exTwo ≤ 1 ∧ (dkeys exTwo.vals).Nodup := by
  have hne : ("discretization" : String) ≠ "a" := by decide +kernel
  refine ⟨?_, ?_, ?_⟩
  · simp [exTwo, ValidPS, ValidVals, ValidVal, PVal.len, Arr.len]
  · simp [exTwo, depthPS, depthVals, depthVal]
  · simp [exTwo, dkeys, PSState.vals, hne]

/-- C60 is false after a `ParamPerturbation`: the parameter `a` of the new state is one array as an item, another
one – with the value from before – as an attribute. -/
theorem C60_values_not : ∃ (h h' : Heap) (a b : Addr) (f : PSFunc) (fuel : ℕ) (t t' : List Draw) (lpr : PyF)
    (k : String) (n : ℕ) (vals attrs : List (String × Addr)) (kd : Option (List (ℝ × ℝ))) (c c' : Addr) (x y : Arr),
    Agree ∅ ∅ h ∧ f.runH fuel a h t = (.ok (b, lpr), h', t') ∧ h'[b]? = some (.ps n vals attrs kd) ∧
    dget vals k = some c ∧ dget attrs k = some c' ∧ h'[c]? = some (.arr x) ∧ h'[c']? = some (.arr y) ∧ x ≠ y := by
  obtain ⟨hv, hd, hk⟩ := valid60
  obtain ⟨⟨b, lpr⟩, h', hrun, _⟩ := (valuesH_sim (fuel := 1) "v" [exWide] rep60 hv hd).ok exTwo_values
  obtain ⟨new, n, vals, attrs, kd, hp, ho, hi, ha⟩ := C60_values_stale "v" [exWide] rep60 hv hd hk lpr _ _ hrun
  rw [exTwo_values] at hp
  simp only [Prod.mk.injEq, Except.ok.injEq, and_true] at hp
  obtain ⟨rfl, -⟩ := hp
  have hne : ("discretization" : String) ≠ "a" := by decide +kernel
  have h1 := repVals_get "a" hi
  have h2 := repVals_get "a" ha
  simp only [PSState.vals, exTwo, dget, hne, if_false, if_true] at h1 h2
  cases hc : dget vals "a" with
  | none => rw [hc] at h1; exact absurd h1 not_false
  | some c =>
    cases hc' : dget attrs "a" with
    | none => rw [hc'] at h2; exact absurd h2 not_false
    | some c' =>
      rw [hc] at h1; rw [hc'] at h2
      simp only [OptRep, RepVal] at h1 h2
      refine ⟨heap60, h', 2, b, _, 1, _, _, lpr, "a", n, vals, attrs, kd, c, c', _, _, ?_, hrun, ho, hc, hc', h1, h2,
        by norm_num⟩
      intro x o hx
      have hlt : x < 3 := lt_of_get hx
      interval_cases x <;> simp [heap60] at hx <;> subst hx <;> simp [AgreeObj]

/-- C60 is false after a `NoisePerturbation`. -/
theorem C60_noise_not : ∃ (h h' : Heap) (a b : Addr) (ts : List Target) (fuel : ℕ) (t t' : List Draw) (lpr : PyF)
    (k : String) (vals attrs : List (String × TRef)) (temp : ℝ) (cache : List (String × CVal))
    (extra : List (String × ℝ)) (d d' : Noise), Agree ∅ ∅ h ∧
    noisePerturbH fuel ts a h t = (.ok (b, lpr), h', t') ∧ h'[b]? = some (.state vals attrs temp cache extra) ∧
    dget vals k = some (.noise d) ∧ dget attrs k = some (.noise d') ∧ d.std ≠ d'.std := by
  have hr : RepState [.state [("t", .noise ⟨2, none⟩)] [("t", .noise ⟨2, none⟩)] 1 [("t.dpred", .dpred [2])] []]
      exState33 0 := ⟨_, _, rfl, by simp [exState33, RepTop]⟩
  have hv : ValidTop exState33.params := by simp [exState33, ValidTop]
  have hd : depthTop exState33.params ≤ 0 := by simp [exState33, depthTop]
  have hk : (dkeys exState33.params).Nodup := by simp [exState33, dkeys]
  obtain ⟨⟨b, lpr⟩, h', hrun, _⟩ := (noisePerturbH_sim [exTarget33] hr hv hd).ok exState33_run
  obtain ⟨new, vals, attrs, temp, cache, extra, hp, ho, hi, ha⟩ := C60_noise_stale [exTarget33] hr hv hd hk lpr _ _ hrun
  rw [exState33_run] at hp
  simp only [Prod.mk.injEq, Except.ok.injEq, and_true] at hp
  obtain ⟨rfl, -⟩ := hp
  simp only [RepTop, exState33] at hi ha
  obtain ⟨_, rfl, rfl⟩ := hi
  obtain ⟨_, rfl, rfl⟩ := ha
  refine ⟨_, h', 0, b, _, 0, _, _, lpr, "t", _, _, temp, cache, extra, ⟨3, none⟩, ⟨2, none⟩, ?_, hrun, ho,
    by simp [dget], by simp [dget], by norm_num⟩
  intro x o hx
  have hlt : x < 1 := lt_of_get hx
  interval_cases x
  simp at hx
  subst hx
  simp [AgreeObj]

/-! ### a run -/

/-- A run: an initial state, a copy of it, a perturbation of the noise of the copy. -/
example : ∃ h, History [.noise [exTarget33]] [] h ∧ "a" ∉ noiseNames [.noise [exTarget33]] := by
  refine ⟨_, .propose (.noise [exTarget33]) 1 1 [⟨0, -3, 0, by norm_num⟩, ⟨0, 1, 0, by norm_num⟩] (by simp)
    (.copy 1 0 false [] (.initial exState33 [] (.refl []))), ?_⟩
  rintro ⟨ts, hm, x, hx, he⟩
  simp at hm; subst hm
  simp at hx; subst hx
  revert he; decide +kernel

end BB.Props
