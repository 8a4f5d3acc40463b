import Verif.Lemmas.WholeChain

/-!
# C78 — the distribution sampled by whole inversions

An inversion with any number of parameter spaces (spaces without sites, with a fixed or variable number of dimensions, and Voronoi
tessellations in one or two dimensions with a fixed number of cells), with or without unknown noise, and with any likelihood.
One iteration of a chain of the library satisfies detailed balance with respect to the product of the posterior and the
probability that nothing has to be drawn anew when all sites and all noise parameters are perturbed.
-/

namespace BB.Props

open BB Spec Lemmas MeasureTheory

variable {E : Type} {p : Problem} {B : ℕ → Block} {logLik : Whole p B → ℝ}

/-- One iteration of the chain satisfies detailed balance with respect to the product of the posterior and the probability that
nothing has to be drawn anew, and it preserves that distribution. -/
theorem C78_sampled (h : WholeProblem p B logLik) {T : ℝ} (hT : T ≠ 0) (state : Whole p B → Chain State Store E)
    (hstate : ∀ x, PossibleWhole x → HoldsAll p B (state x).cur.params ∧ SameWhole x (wholeOf p B (state x).cur.params) ∧
      Coherent p.tf (state x).cur)
    (htemp : ∀ x, (state x).temp = T) :
    DetailedBalanceUpTo SameWhole
      (posterior ((wholePrior p B).withDensity fun x => ENNReal.ofReal (wholeStaying p B x)) logLik T)
      (fun x => IterationLaw p.cfg (wholeDraws p B) (wholeLaw p B) (fun s => wholeOf p B s.params) (state x)) ∧
    PreservesUpTo SameWhole
      (posterior ((wholePrior p B).withDensity fun x => ENNReal.ofReal (wholeStaying p B x)) logLik T)
      (fun x => IterationLaw p.cfg (wholeDraws p B) (wholeLaw p B) (fun s => wholeOf p B s.params) (state x)) :=
  whole_balance h hT state hstate htemp

theorem modelled_stay {sp : Space} {b : Block} (h : Modelled sp b) (hk : sp.info.kind = .plain) (y : b.X) : b.staying y = 1 := by
  cases h with
  | plain => exact overSites_one y
  | fixed => exact overSites_one y
  | line _ _ _ _ _ hp _ => exact absurd (hk.symm.trans hp.kind) (by simp)
  | plane _ _ _ _ _ hp _ => exact absurd (hk.symm.trans hp.kind) (by simp)

theorem wholeStaying_one (h : WholeProblem p B logLik)
    (hplain : ∀ (i : ℕ) (nm : String) (sp : Space), p.spaces[i]? = some (nm, sp) → sp.info.kind = .plain) (hnoise : p.hier = [])
    (x : Whole p B) : wholeStaying p B x = 1 := by
  refine Finset.prod_eq_one fun i _ => ?_
  rcases inversion_cases (fun _ _ h => .known h) h i with ⟨sp, hq, hm, -⟩ | ⟨-, hi, -⟩
  · have hk := hplain _ _ _ hq
    exact modelled_stay hm hk _
  · exact absurd hnoise hi

/-- Without sites and unknown noise, this is the posterior. -/
theorem C78_posterior (h : WholeProblem p B logLik) (hplain : ∀ (i : ℕ) (nm : String) (sp : Space), p.spaces[i]? = some (nm, sp) → sp.info.kind = .plain)
    (hnoise : p.hier = []) {T : ℝ} (hT : T ≠ 0) (state : Whole p B → Chain State Store E)
    (hstate : ∀ x, PossibleWhole x → HoldsAll p B (state x).cur.params ∧ SameWhole x (wholeOf p B (state x).cur.params) ∧
      Coherent p.tf (state x).cur)
    (htemp : ∀ x, (state x).temp = T) :
    DetailedBalanceUpTo SameWhole (posterior (wholePrior p B) logLik T)
      (fun x => IterationLaw p.cfg (wholeDraws p B) (wholeLaw p B) (fun s => wholeOf p B s.params) (state x)) ∧
    PreservesUpTo SameWhole (posterior (wholePrior p B) logLik T)
      (fun x => IterationLaw p.cfg (wholeDraws p B) (wholeLaw p B) (fun s => wholeOf p B s.params) (state x)) := by
  have h1 := wholeStaying_one h hplain hnoise
  have key := whole_balance h hT state hstate htemp
  have e : (wholePrior p B).withDensity (fun x => ENNReal.ofReal (wholeStaying p B x)) = wholePrior p B := by
    simp only [h1, ENNReal.ofReal_one]
    exact withDensity_one
  rw [e] at key
  exact key

/-! ### example

A `Voronoi1D` with three cells and two parameters, one datum of which the forward function predicts the sum of the values of
the first parameter, and unknown noise between 1/2 and 2. -/

section Examples

/-- The target. -/
noncomputable def ex78t : Target := { name := "obs", dobs := [1], stdMin := 1 / 2, stdMax := 2 }

/-- The forward function. -/
noncomputable def ex78f : Fwd := fun q => match dget q "s" with
  | some (.ps st) => match dget st.vals "a" with
    | some (.arr (.vec v)) => some [v.sum]
    | _ => none
  | _ => none

/-- The inversion. -/
noncomputable def ex78p (s : ArgSort) : Problem where
  spaces := [("s", exSpace77 (.vor1 ⟨0, 10, 1, s⟩))]
  kind := .targets
  tf := [(ex78t, ex78f)]

/-- Its blocks. -/
noncomputable def ex78B (s : ArgSort) : ℕ → Block
  | 0 => lineBlock (exSpace77 (.vor1 ⟨0, 10, 1, s⟩)) exPriors23 ⟨0, 10, 1, s⟩ exDens23
  | _ => noiseBlock [ex78t]

theorem ex78_len (s : ArgSort) : (ex78p s).cfg.perturbs.length = 2 := rfl

/-- The index of the space. -/
def ex78i (s : ArgSort) : Fin (ex78p s).cfg.perturbs.length := ⟨0, Nat.zero_lt_two⟩

/-- The index of the noise. -/
def ex78j (s : ArgSort) : Fin (ex78p s).cfg.perturbs.length := ⟨1, Nat.one_lt_two⟩

theorem ex78_two {s : ArgSort} (i : Fin (ex78p s).cfg.perturbs.length) : i = ex78i s ∨ i = ex78j s := by
  have h : i.val < 2 := i.is_lt
  rcases (by omega : i.val = 0 ∨ i.val = 1) with hi | hi
  · exact .inl (Fin.ext hi)
  · exact .inr (Fin.ext hi)

/-- The values of the cells. -/
noncomputable def ex78x {s : ArgSort} (x : Whole (ex78p s) (ex78B s)) : Tuple (ℝ × (Fin 2 → ℝ)) := x (ex78i s)

/-- The standard deviation of the noise. -/
noncomputable def ex78d {s : ArgSort} (x : Whole (ex78p s) (ex78B s)) : ℝ :=
  (x (ex78j s) : NoiseValues [ex78t]) (⟨0, by simp⟩, false)

/-- The log likelihood. -/
noncomputable def ex78l {s : ArgSort} (x : Whole (ex78p s) (ex78B s)) : ℝ :=
  -(1 / 2) * Real.log (2 * Real.pi) - Real.log (ex78d x ^ 2) / 2 -
    ((∑ i, ((ex78x x).2 i).2 0 - 1) * ((ex78d x ^ 2)⁻¹ * (∑ i, ((ex78x x).2 i).2 0 - 1))) / 2

theorem ex78_fwd {q : Params} {st : PSState} {l : List (ℝ × (Fin 2 → ℝ))} (h1 : dget q "s" = some (.ps st))
    (h2 : Holds lineSites exPriors23 l st) : ex78f q = some [(l.map fun r => r.2 0).sum] := by
  unfold ex78f
  rw [h1]
  simp only
  rw [h2.2]
  rfl

theorem ex78_lik (s : ArgSort) : HasWholeLogLik (ex78p s) (ex78B s) ex78l := by
  intro q hq hp
  obtain ⟨st, h1, l, h2, -⟩ := hq.2 (ex78i s)
  obtain ⟨d, h3, h4⟩ := hq.2 (ex78j s) ex78t (List.mem_singleton_self _)
  have hc : d.corr = none := by
    by_contra hne
    exact absurd (h4.2 hne) (by simp [ex78t])
  have hd : ex78d (wholeOf (ex78p s) (ex78B s) q) = d.std := by
    change noiseValue ex78t q false = _
    unfold noiseValue
    rw [h3]
  have hx : ex78x (wholeOf (ex78p s) (ex78B s) q) = ofRows l := by
    change (match dget q "s" with
      | some (.ps st) => decode lineSites exPriors23 st
      | _ => ofRows []) = _
    rw [show dget q "s" = some (.ps st) from h1]
    exact decode_line _ _ _ h2
  have hstd : d.std ∈ Set.Icc (1 / 2 : ℝ) 2 := by
    have := hp (ex78j s) (⟨0, by simp⟩, false)
    rw [← hd]
    exact this
  have hpos : 0 < d.std := by linarith [hstd.1]
  have hn : noiseIn q ex78t = d := by
    unfold noiseIn
    rw [h3]
  have hf := ex78_fwd h1 h2
  constructor
  · intro x hx
    rw [show (ex78p s).tf = [(ex78t, ex78f)] from rfl, List.mem_singleton] at hx
    subst hx
    refine ⟨⟨_, hf, rfl⟩, by simp [ex78t], fun _ => ?_, ?_⟩
    · simp only
      rw [hn]
      exact h3
    · simp only
      rw [hn]
      refine ⟨hpos, fun r hr => ?_⟩
      rw [hc] at hr
      cases hr
  · unfold ex78l
    rw [hd, hx]
    unfold Spec.logLik
    rw [show (ex78p s).tf = [(ex78t, ex78f)] from rfl]
    simp only [List.map_cons, List.map_nil, List.sum_cons, List.sum_nil, add_zero, hn, hf, Option.getD_some]
    unfold targetLogLik
    have hC : dataCov ex78t d = Matrix.diagonal fun _ => d.std ^ 2 := by
      unfold dataCov
      simp only [ex78t, hc]
    have hinv : (Matrix.diagonal fun _ : Fin ex78t.dobs.length => d.std ^ 2)⁻¹ =
        Matrix.diagonal fun _ : Fin ex78t.dobs.length => (d.std ^ 2)⁻¹ := by
      refine Matrix.inv_eq_right_inv ?_
      rw [Matrix.diagonal_mul_diagonal]
      simp only [mul_inv_cancel₀ (pow_pos hpos 2).ne']
      exact Matrix.diagonal_one
    unfold normalLogDensity
    rw [hC, hinv, Matrix.det_diagonal]
    have hlen : ex78t.dobs.length = 1 := rfl
    have hsum : ∑ i, ((ofRows l).2 i).2 0 = (l.map fun r => r.2 0).sum := by
      change ∑ i : Fin l.length, (l.get i).2 0 = _
      rw [← List.sum_ofFn]
      congr 1
      refine List.ext_getElem (by simp) fun i h1 h2 => ?_
      simp
    rw [hsum]
    generalize (l.map fun r => r.2 0).sum = a
    have hprod : ∏ _i : Fin ex78t.dobs.length, d.std ^ 2 = d.std ^ 2 := by
      rw [Finset.prod_const, Finset.card_univ, Fintype.card_fin, hlen, pow_one]
    have hdot : (vecOf ex78t.dobs.length [a] - vecOf ex78t.dobs.length ex78t.dobs) ⬝ᵥ
        (Matrix.diagonal fun _ : Fin ex78t.dobs.length => (d.std ^ 2)⁻¹).mulVec
          (vecOf ex78t.dobs.length [a] - vecOf ex78t.dobs.length ex78t.dobs) = (a - 1) * ((d.std ^ 2)⁻¹ * (a - 1)) := by
      unfold dotProduct
      simp only [Matrix.mulVec_diagonal]
      change ∑ i : Fin 1, (vecOf 1 [a] - vecOf 1 [1]) i * ((d.std ^ 2)⁻¹ * (vecOf 1 [a] - vecOf 1 [1]) i) = _
      rw [Fin.sum_univ_one]
      simp [vecOf]
    rw [hprod, hdot, hlen]
    norm_num

theorem ex78_problem (s : ArgSort) : WholeProblem (ex78p s) (ex78B s) ex78l where
  exist := .inl (by simp [ex78p])
  spaces := by
    intro i nm sp h
    match i with
    | 0 =>
      obtain ⟨rfl, rfl⟩ := Prod.mk.inj (Option.some.inj h)
      exact ⟨rfl, .line _ _ _ _ _ (ex77_line (ex77_only _) (by change 1 ≤ 3; decide) s rfl) rfl⟩
    | i + 1 => cases h
  noise := fun _ => rfl
  distinct := by
    change ["s", "obs"].Nodup
    decide +kernel
  targets := List.nodup_singleton _
  bounds := by
    rintro ⟨i, b⟩ r hr
    have hi : i = ⟨0, Nat.one_pos⟩ := Fin.ext (Nat.lt_one_iff.1 i.is_lt)
    subst hi
    cases b with
    | false =>
      cases hr
      exact ⟨by change (1 / 2 : ℝ) < 2; norm_num, by change (0 : ℝ) < ex78t.stdPerturb; norm_num [ex78t]⟩
    | true => cases hr
  likelihood := ex78_lik s
  meas := by
    have h1 : Measurable fun x : Whole (ex78p s) (ex78B s) => ex78d x :=
      (measurable_pi_apply (X := fun _ : Fin [ex78t].length × Bool => ℝ) (⟨0, Nat.one_pos⟩, false)).comp (measurable_pi_apply (ex78j s))
    have h2 : Measurable fun x : Tuple (ℝ × (Fin 2 → ℝ)) => ∑ i, (x.2 i).2 0 := by
      refine measurable_tuple fun n => ?_
      change Measurable fun v : Fin n → ℝ × (Fin 2 → ℝ) => ∑ i, (v i).2 0
      fun_prop
    have h3 : Measurable fun x : Whole (ex78p s) (ex78B s) => ∑ i, ((ex78x x).2 i).2 0 :=
      h2.comp (measurable_pi_apply (ex78i s))
    unfold ex78l
    fun_prop
  lumps := by
    intro x y h
    have h1 : ex78d x = ex78d y := by
      have : x (ex78j s) = y (ex78j s) := h (ex78j s)
      unfold ex78d
      rw [this]
    have h2 : ∑ i, ((ex78x x).2 i).2 0 = ∑ i, ((ex78x y).2 i).2 0 := by
      have hp : (List.ofFn (ex78x x).2).Perm (List.ofFn (ex78x y).2) := h (ex78i s)
      have := (hp.map fun r => r.2 0).sum_eq
      rw [List.map_ofFn, List.map_ofFn, List.sum_ofFn, List.sum_ofFn] at this
      exact this
    unfold ex78l
    rw [h1, h2]

/-- A chain at a model. -/
noncomputable def ex78s {s : ArgSort} (x : Whole (ex78p s) (ex78B s)) : Chain State Store Unit :=
  Chain.init { params := [("s", .ps (exState23 lineSites (Chain.init (.mk 0 [] none) () 1 ()) (ex78x x)).cur), ("obs", .noise ⟨ex78d x, none⟩)],
               temperature := 1, cache := [], extra := [] } [] 1 ()

theorem ex78_state (s : ArgSort) (x : Whole (ex78p s) (ex78B s)) (hx : PossibleWhole x) :
    HoldsAll (ex78p s) (ex78B s) (ex78s x).cur.params ∧
      SameWhole x (wholeOf (ex78p s) (ex78B s) (ex78s x).cur.params) ∧ Coherent (ex78p s).tf (ex78s x).cur := by
  have h0 := hx (ex78i s)
  have h1 := hx (ex78j s)
  have hh := ex23_state lineSites (Chain.init (.mk 0 [] none) () 1 ()) (ex78x x)
  refine ⟨⟨rfl, fun i => ?_⟩, fun i => ?_, fun y _ v hv => by cases hv⟩
  · rcases ex78_two i with rfl | rfl
    · refine ⟨_, rfl, _, hh, ?_⟩
      rw [List.length_ofFn]
      exact ⟨h0.1.1.1, h0.1.1.2, fun r hr => (h0.1.2 r hr).1, trivial, trivial⟩
    · intro t ht
      obtain rfl := List.mem_singleton.1 ht
      exact ⟨⟨ex78d x, none⟩, rfl, by simp [ex78t]⟩
  · rcases ex78_two i with rfl | rfl
    · have e : wholeOf (ex78p s) (ex78B s) (ex78s x).cur.params (ex78i s) = ofRows (List.ofFn (ex78x x).2) :=
        decode_line _ _ _ hh
      rw [e]
      change (List.ofFn (ex78x x).2).Perm (List.ofFn (ofRows (List.ofFn (ex78x x).2)).2)
      rw [rows_ofRows]
    · funext q
      obtain ⟨i, b⟩ := q
      have hi : i = ⟨0, Nat.one_pos⟩ := Fin.ext (Nat.lt_one_iff.1 i.is_lt)
      subst hi
      cases b with
      | false => rfl
      | true => exact h1 (⟨0, Nat.one_pos⟩, true)

example (s : ArgSort) := C78_sampled (ex78_problem s) one_ne_zero ex78s (ex78_state s) fun _ => rfl

/-- Two spaces without sites, one with a variable number of dimensions, and a function for the log likelihood. -/
noncomputable def ex78q : Problem where
  spaces := [("s", exSpace23 .plain), ("t", .mk { name := "t", kind := .plain, nDim := some 3 }
    (.cons "a" (.prior (exPriors23 0)) (.cons "b" (.prior (exPriors23 1)) .nil)))]
  kind := .loglike fun s => match dget s.params "s" with
    | some (.ps st) => .ok (.fin (-(st.n : ℝ)))
    | _ => .error .userFunction
  tf := []

/-- Its blocks. -/
noncomputable def ex78C : ℕ → Block
  | 0 => plainBlock (exSpace23 .plain) exPriors23 exDens23
  | _ => fixedBlock (.mk { name := "t", kind := .plain, nDim := some 3 }
    (.cons "a" (.prior (exPriors23 0)) (.cons "b" (.prior (exPriors23 1)) .nil))) exPriors23 exDens23

/-- The values of the first space. -/
noncomputable def ex78y (x : Whole ex78q ex78C) : Tuple (Unit × (Fin 2 → ℝ)) :=
  x (⟨0, Nat.zero_lt_two⟩ : Fin ex78q.cfg.perturbs.length)

/-- The values of the second space. -/
noncomputable def ex78z (x : Whole ex78q ex78C) : Tuple (Unit × (Fin 2 → ℝ)) :=
  x (⟨1, Nat.one_lt_two⟩ : Fin ex78q.cfg.perturbs.length)

theorem ex78q_problem : WholeProblem ex78q ex78C fun x => exLik23 (ex78y x) where
  exist := .inl (by simp [ex78q])
  spaces := by
    intro i nm sp h
    match i with
    | 0 =>
      obtain ⟨rfl, rfl⟩ := Prod.mk.inj (Option.some.inj h)
      exact ⟨rfl, .plain _ _ _ _ rfl (ex77_can _ _ (ex23_only _) (by decide)) rfl (by decide)⟩
    | 1 =>
      obtain ⟨rfl, rfl⟩ := Prod.mk.inj (Option.some.inj h)
      exact ⟨rfl, .fixed _ _ _ _ rfl (ex77_can _ _ ⟨rfl, (ex23_only .plain).inj, (ex23_only .plain).disc⟩ (by decide)) rfl⟩
    | i + 2 => cases h
  noise := fun h => absurd rfl h
  distinct := by
    change ["s", "t"].Nodup
    decide +kernel
  targets := List.nodup_nil
  bounds := fun q => q.1.elim0
  likelihood := by
    intro s hs hp
    obtain ⟨st, h1, l, h2, -⟩ := hs.2 (⟨0, Nat.zero_lt_two⟩ : Fin ex78q.cfg.perturbs.length)
    have h1' : dget s.params "s" = some (.ps st) := h1
    have hy : ex78y (wholeOf ex78q ex78C s.params) = ofRows l := by
      change (match dget s.params "s" with
        | some (.ps st) => decode noSites exPriors23 st
        | _ => ofRows []) = _
      rw [h1']
      exact decode_none _ _ _ h2
    simp only [h1', hy]
    rw [h2.1]
    rfl
  meas := ex23_lik.comp (measurable_pi_apply (⟨0, Nat.zero_lt_two⟩ : Fin ex78q.cfg.perturbs.length))
  lumps := fun x y h => ex23_same _ _ (h (⟨0, Nat.zero_lt_two⟩ : Fin ex78q.cfg.perturbs.length))

/-- A chain at a model. -/
noncomputable def ex78u (x : Whole ex78q ex78C) : Chain State Store Unit :=
  Chain.init { params := [("s", .ps (exState23 noSites (Chain.init (.mk 0 [] none) () 1 ()) (ex78y x)).cur),
                 ("t", .ps (exState23 noSites (Chain.init (.mk 0 [] none) () 1 ()) (ex78z x)).cur)],
               temperature := 1, cache := [], extra := [] } [] 1 ()

theorem ex78u_state (x : Whole ex78q ex78C) (hx : PossibleWhole x) : HoldsAll ex78q ex78C (ex78u x).cur.params ∧
      SameWhole x (wholeOf ex78q ex78C (ex78u x).cur.params) ∧ Coherent ex78q.tf (ex78u x).cur := by
  have h0 := hx (⟨0, Nat.zero_lt_two⟩ : Fin ex78q.cfg.perturbs.length)
  have h1 := hx (⟨1, Nat.one_lt_two⟩ : Fin ex78q.cfg.perturbs.length)
  have hy := ex23_state noSites (Chain.init (.mk 0 [] none) () 1 ()) (ex78y x)
  have hz := ex23_state noSites (Chain.init (.mk 0 [] none) () 1 ()) (ex78z x)
  have two : ∀ i : Fin ex78q.cfg.perturbs.length, i = ⟨0, Nat.zero_lt_two⟩ ∨ i = ⟨1, Nat.one_lt_two⟩ := by
    intro i
    have h : i.val < 2 := i.is_lt
    rcases (by omega : i.val = 0 ∨ i.val = 1) with hi | hi
    · exact .inl (Fin.ext hi)
    · exact .inr (Fin.ext hi)
  refine ⟨⟨rfl, fun i => ?_⟩, fun i => ?_, fun y hy => by cases hy⟩
  · rcases two i with rfl | rfl
    · refine ⟨_, rfl, _, hy, ?_⟩
      rw [List.length_ofFn]
      exact ⟨h0.1.1.1, h0.1.1.2, fun _ _ => trivial, trivial, trivial⟩
    · refine ⟨_, rfl, _, hz, ?_⟩
      rw [List.length_ofFn]
      exact ⟨h1.1.1.1, h1.1.1.2, fun _ _ => trivial, trivial, trivial⟩
  · rcases two i with rfl | rfl
    · have e : wholeOf ex78q ex78C (ex78u x).cur.params ⟨0, Nat.zero_lt_two⟩ = ofRows (List.ofFn (ex78y x).2) :=
        decode_none _ _ _ hy
      rw [e]
      change (List.ofFn (ex78y x).2).Perm (List.ofFn (ofRows (List.ofFn (ex78y x).2)).2)
      rw [rows_ofRows]
    · have e : wholeOf ex78q ex78C (ex78u x).cur.params ⟨1, Nat.one_lt_two⟩ = ofRows (List.ofFn (ex78z x).2) :=
        decode_none _ _ _ hz
      rw [e]
      change (List.ofFn (ex78z x).2).Perm (List.ofFn (ofRows (List.ofFn (ex78z x).2)).2)
      rw [rows_ofRows]

theorem ex78q_plain (i : ℕ) (nm : String) (sp : Space) (h : ex78q.spaces[i]? = some (nm, sp)) : sp.info.kind = .plain := by
  match i with
  | 0 =>
    obtain ⟨rfl, rfl⟩ := Prod.mk.inj (Option.some.inj h)
    rfl
  | 1 =>
    obtain ⟨rfl, rfl⟩ := Prod.mk.inj (Option.some.inj h)
    rfl
  | i + 2 => cases h

example := C78_posterior ex78q_problem ex78q_plain rfl one_ne_zero ex78u ex78u_state fun _ => rfl

end Examples

end BB.Props
