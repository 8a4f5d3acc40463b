import Verif.Props.C78_WholeInversion

/-!
# C80 — which inversions sample the posterior

An inversion with any number of parameter spaces of any kind (without sites, or Voronoi tessellations in one or two dimensions, with
a fixed or variable number of dimensions, births drawing values from the prior or around those of the nearest cell), with or
without unknown noise, and with any likelihood.  As soon as there is one tessellation, or the noise of one target is unknown,
one iteration of a chain of the library does not preserve the posterior; otherwise it does.
-/

namespace BB.Props

open BB Spec Lemmas MeasureTheory

variable {E : Type} {p : Problem} {B : ℕ → Block} {logLik : Whole p B → ℝ}

/-- With a tessellation or unknown noise, an iteration does not preserve the posterior. -/
theorem C80_not_posterior (h : AnyProblem p B logLik) {T : ℝ} (hT : T ≠ 0) (state : Whole p B → Chain State Store E)
    (hstate : ∀ x, PossibleWhole x → HoldsAll p B (state x).cur.params ∧ SameWhole x (wholeOf p B (state x).cur.params) ∧
      Coherent p.tf (state x).cur)
    (htemp : ∀ x, (state x).temp = T) (hfin : posterior (wholePrior p B) logLik T Set.univ ≠ ⊤)
    (hd : (∃ kv ∈ p.spaces, kv.2.info.kind ≠ .plain) ∨ p.hier ≠ []) :
    ¬ PreservesUpTo SameWhole (posterior (wholePrior p B) logLik T)
      (fun x => IterationLaw p.cfg (wholeDraws p B) (wholeLaw p B) (fun s => wholeOf p B s.params) (state x)) := by
  refine whole_not_preserved h hT state hstate htemp hfin (hd.imp_left ?_)
  rintro ⟨kv, hm, hk⟩
  refine ⟨kv, hm, ?_⟩
  cases hi : kv.2.info.kind with
  | plain => exact absurd hi hk
  | vor1 v => rfl
  | vor2 v => rfl

theorem plain_modelled {sp : Space} {b : Block} (h : Explored sp b) (hk : sp.info.kind = .plain) : Modelled sp b := by
  cases h with
  | known h => exact h
  | lineBirths _ _ _ _ _ hp => exact absurd (hk.symm.trans hp.kind) (by simp)
  | lineNear _ _ _ _ _ _ hp => exact absurd (hk.symm.trans hp.kind) (by simp)
  | planeBirths _ _ _ _ _ hp => exact absurd (hk.symm.trans hp.kind) (by simp)
  | planeNear _ _ _ _ _ _ hp => exact absurd (hk.symm.trans hp.kind) (by simp)

/-- An iteration preserves the posterior exactly if there are no tessellations and all noise is known. -/
theorem C80_exactly (h : AnyProblem p B logLik) {T : ℝ} (hT : T ≠ 0) (state : Whole p B → Chain State Store E)
    (hstate : ∀ x, PossibleWhole x → HoldsAll p B (state x).cur.params ∧ SameWhole x (wholeOf p B (state x).cur.params) ∧
      Coherent p.tf (state x).cur)
    (htemp : ∀ x, (state x).temp = T) (hfin : posterior (wholePrior p B) logLik T Set.univ ≠ ⊤) :
    PreservesUpTo SameWhole (posterior (wholePrior p B) logLik T)
      (fun x => IterationLaw p.cfg (wholeDraws p B) (wholeLaw p B) (fun s => wholeOf p B s.params) (state x)) ↔
    (∀ kv ∈ p.spaces, kv.2.info.kind = .plain) ∧ p.hier = [] := by
  constructor
  · intro hp
    by_contra hc
    refine C80_not_posterior h hT state hstate htemp hfin ?_ hp
    by_contra hn
    push Not at hn
    exact hc hn
  · rintro ⟨h1, h2⟩
    have hplain : ∀ (i : ℕ) (nm : String) (sp : Space), p.spaces[i]? = some (nm, sp) → sp.info.kind = .plain :=
      fun i nm sp hi => h1 _ (List.mem_of_getElem? hi)
    refine (C78_posterior (logLik := logLik) ⟨h.exist, fun i nm sp hi => ⟨(h.spaces i nm sp hi).1,
      plain_modelled (h.spaces i nm sp hi).2 (hplain i nm sp hi)⟩, h.noise, h.distinct, h.targets, h.bounds, h.likelihood, h.meas,
      h.lumps⟩ hplain h2 hT state hstate htemp).2

/-! ### examples -/

section Examples

theorem fin80 (h : AnyProblem p B logLik) (c : ℝ) (hl : ∀ x, PossibleWhole x → logLik x ≤ c) :
    posterior (wholePrior p B) logLik 1 Set.univ ≠ ⊤ := by
  have hf := wholePrior_finite h
  unfold posterior
  rw [withDensity_apply _ MeasurableSet.univ, Measure.restrict_univ]
  refine ne_top_of_le_ne_top (b := ∫⁻ _, ENNReal.ofReal (Real.exp c) ∂wholePrior p B) ?_ (lintegral_mono_ae ?_)
  · rw [lintegral_const]
    exact ENNReal.mul_ne_top ENNReal.ofReal_ne_top (measure_ne_top _ _)
  · filter_upwards [whole_possible_prior h] with x hx
    refine ENNReal.ofReal_le_ofReal (Real.exp_le_exp.2 ?_)
    rw [div_one]
    exact hl x hx

/-- The first example of C78: three cells and unknown noise. -/
theorem ex80_fin (s : ArgSort) : posterior (wholePrior (ex78p s) (ex78B s)) ex78l 1 Set.univ ≠ ⊤ := by
  refine fin80 (any_of_whole (ex78_problem s)) (-(1 / 2) * Real.log (2 * Real.pi) - Real.log ((1 / 2) ^ 2) / 2) fun x hx => ?_
  have hd : ex78d x ∈ Set.Icc (1 / 2 : ℝ) 2 := hx (ex78j s) (⟨0, Nat.one_pos⟩, false)
  unfold ex78l
  have h1 : Real.log ((1 / 2) ^ 2) ≤ Real.log (ex78d x ^ 2) :=
    Real.log_le_log (by norm_num) (pow_le_pow_left₀ (by norm_num) hd.1 2)
  have h2 : 0 ≤ (∑ i, ((ex78x x).2 i).2 0 - 1) * ((ex78d x ^ 2)⁻¹ * (∑ i, ((ex78x x).2 i).2 0 - 1)) := by
    have h3 : 0 ≤ (ex78d x ^ 2)⁻¹ := inv_nonneg.2 (sq_nonneg _)
    have := mul_nonneg h3 (sq_nonneg (∑ i, ((ex78x x).2 i).2 0 - 1))
    calc (0 : ℝ) ≤ _ := this
      _ = _ := by ring
  linarith

example (s : ArgSort) := C80_not_posterior (any_of_whole (ex78_problem s)) one_ne_zero ex78s (ex78_state s) (fun _ => rfl) (ex80_fin s)
  (.inl ⟨_, List.mem_singleton_self _, by change Kind.vor1 _ ≠ _; simp⟩)

example (s : ArgSort) := C80_exactly (any_of_whole (ex78_problem s)) one_ne_zero ex78s (ex78_state s) (fun _ => rfl) (ex80_fin s)

/-- A `Voronoi1D` with a variable number of cells, the values of which are drawn around those of the nearest cell, and a space
without sites. -/
noncomputable def ex80p (s : ArgSort) : Problem where
  spaces := [("s", exSpace75 (.vor1 ⟨0, 10, 1, s⟩)), ("t", .mk { name := "t", kind := .plain, nDim := some 3 }
    (.cons "a" (.prior (exPriors23 0)) (.cons "b" (.prior (exPriors23 1)) .nil)))]
  kind := .loglike fun s => match dget s.params "s" with
    | some (.ps st) => .ok (.fin (-(st.n : ℝ)))
    | _ => .error .userFunction
  tf := []

/-- Its blocks. -/
noncomputable def ex80B (s : ArgSort) : ℕ → Block
  | 0 => lineNearBlock (exSpace75 (.vor1 ⟨0, 10, 1, s⟩)) exPriors23 ⟨0, 10, 1, s⟩ exDens23
  | _ => fixedBlock (.mk { name := "t", kind := .plain, nDim := some 3 }
    (.cons "a" (.prior (exPriors23 0)) (.cons "b" (.prior (exPriors23 1)) .nil))) exPriors23 exDens23

/-- The values of the cells. -/
noncomputable def ex80y {s : ArgSort} (x : Whole (ex80p s) (ex80B s)) : Tuple (ℝ × (Fin 2 → ℝ)) :=
  x (⟨0, Nat.zero_lt_two⟩ : Fin (ex80p s).cfg.perturbs.length)

/-- The values of the second space. -/
noncomputable def ex80z {s : ArgSort} (x : Whole (ex80p s) (ex80B s)) : Tuple (Unit × (Fin 2 → ℝ)) :=
  x (⟨1, Nat.one_lt_two⟩ : Fin (ex80p s).cfg.perturbs.length)

theorem ex80_problem (s : ArgSort) : AnyProblem (ex80p s) (ex80B s) fun x => exLik23 (ex80y x) where
  exist := .inl (by simp [ex80p])
  spaces := by
    intro i nm sp h
    match i with
    | 0 =>
      obtain ⟨rfl, rfl⟩ := Prod.mk.inj (Option.some.inj h)
      exact ⟨rfl, .lineNear _ _ _ _ _ (fun _ _ => 1) (ex77_line (ex75_only _) (by change 1 ≤ 1; decide) s rfl) rfl
        (by change 1 < 10; decide) rfl (fun _ => measurable_const) (fun j _ _ => ex75_std j _) fun _ _ _ => one_pos⟩
    | 1 =>
      obtain ⟨rfl, rfl⟩ := Prod.mk.inj (Option.some.inj h)
      exact ⟨rfl, .known (.fixed _ _ _ _ rfl (ex77_can _ _ ⟨rfl, (ex23_only .plain).inj, (ex23_only .plain).disc⟩ (by decide)) rfl)⟩
    | i + 2 => cases h
  noise := fun h => absurd rfl h
  distinct := by
    change ["s", "t"].Nodup
    decide +kernel
  targets := List.nodup_nil
  bounds := fun q => q.1.elim0
  likelihood := by
    intro t ht hp
    obtain ⟨st, h1, l, h2, -⟩ := ht.2 (⟨0, Nat.zero_lt_two⟩ : Fin (ex80p s).cfg.perturbs.length)
    have h1' : dget t.params "s" = some (.ps st) := h1
    have hy : ex80y (wholeOf (ex80p s) (ex80B s) t.params) = ofRows l := by
      change (match dget t.params "s" with
        | some (.ps st) => decode lineSites exPriors23 st
        | _ => ofRows []) = _
      rw [h1']
      exact decode_line _ _ _ h2
    simp only [h1', hy]
    rw [h2.1]
    rfl
  meas := ex23_lik.comp (measurable_pi_apply (⟨0, Nat.zero_lt_two⟩ : Fin (ex80p s).cfg.perturbs.length))
  lumps := fun x y h => ex23_same _ _ (h (⟨0, Nat.zero_lt_two⟩ : Fin (ex80p s).cfg.perturbs.length))

/-- A chain at a model. -/
noncomputable def ex80s {s : ArgSort} (x : Whole (ex80p s) (ex80B s)) : Chain State Store Unit :=
  Chain.init { params := [("s", .ps (exState75 (Chain.init (.mk 0 [] none) () 1 ()) (ex80y x)).cur),
                 ("t", .ps (exState23 noSites (Chain.init (.mk 0 [] none) () 1 ()) (ex80z x)).cur)],
               temperature := 1, cache := [], extra := [] } [] 1 ()

theorem ex80_state (s : ArgSort) (x : Whole (ex80p s) (ex80B s)) (hx : PossibleWhole x) :
    HoldsAll (ex80p s) (ex80B s) (ex80s x).cur.params ∧
      SameWhole x (wholeOf (ex80p s) (ex80B s) (ex80s x).cur.params) ∧ Coherent (ex80p s).tf (ex80s x).cur := by
  have h0 := hx (⟨0, Nat.zero_lt_two⟩ : Fin (ex80p s).cfg.perturbs.length)
  have h1 := hx (⟨1, Nat.one_lt_two⟩ : Fin (ex80p s).cfg.perturbs.length)
  obtain ⟨l, hl, hord, hy⟩ := ex75_state (Chain.init (.mk 0 [] none) () 1 ()) (ex80y x)
  have hz := ex23_state noSites (Chain.init (.mk 0 [] none) () 1 ()) (ex80z x)
  have two : ∀ i : Fin (ex80p s).cfg.perturbs.length, i = ⟨0, Nat.zero_lt_two⟩ ∨ i = ⟨1, Nat.one_lt_two⟩ := by
    intro i
    have h : i.val < 2 := i.is_lt
    rcases (by omega : i.val = 0 ∨ i.val = 1) with hi | hi
    · exact .inl (Fin.ext hi)
    · exact .inr (Fin.ext hi)
  refine ⟨⟨rfl, fun i => ?_⟩, fun i => ?_, fun y hy => by cases hy⟩
  · rcases two i with rfl | rfl
    · refine ⟨_, rfl, l, hy, ?_⟩
      rw [hl.length_eq, List.length_ofFn]
      exact ⟨h0.1.1.1, h0.1.1.2, fun r hr => (h0.1.2 r (hl.mem_iff.1 hr)).1, Generic.perm h0.2 (hl.map Prod.fst), hord⟩
    · refine ⟨_, rfl, _, hz, ?_⟩
      rw [List.length_ofFn]
      exact ⟨h1.1.1.1, h1.1.1.2, fun _ _ => trivial, trivial, trivial⟩
  · rcases two i with rfl | rfl
    · have e : wholeOf (ex80p s) (ex80B s) (ex80s x).cur.params ⟨0, Nat.zero_lt_two⟩ = ofRows l := decode_line _ _ _ hy
      rw [e]
      change (List.ofFn (ex80y x).2).Perm (List.ofFn (ofRows l).2)
      rw [rows_ofRows]
      exact hl.symm
    · have e : wholeOf (ex80p s) (ex80B s) (ex80s x).cur.params ⟨1, Nat.one_lt_two⟩ = ofRows (List.ofFn (ex80z x).2) :=
        decode_none _ _ _ hz
      rw [e]
      change (List.ofFn (ex80z x).2).Perm (List.ofFn (ofRows (List.ofFn (ex80z x).2)).2)
      rw [rows_ofRows]

example (s : ArgSort) := C80_not_posterior (ex80_problem s) one_ne_zero ex80s (ex80_state s) (fun _ => rfl)
  (fin80 (ex80_problem s) 0 fun x _ => neg_nonpos.2 (Nat.cast_nonneg _))
  (.inl ⟨_, List.mem_cons_self, by change Kind.vor1 _ ≠ _; simp⟩)

end Examples

end BB.Props
