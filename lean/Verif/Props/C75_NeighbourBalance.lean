import Verif.Lemmas.NearRun
import Verif.Lemmas.NearSites

/-!
# C75 — births from the nearest neighbour and the deaths that undo them satisfy detailed balance

A chain the perturbations of which are the birth and the death of a `Voronoi1D` or a `Voronoi2D` all of whose parameters
are priors, with births from the nearest neighbour (`birth_from="neighbour"`, the default): the values of a new site are
those of the nearest site plus normal deviates.  The distribution is the one of C23, and models are compared up to the order
of the rows.
-/

namespace BB.Props

open BB Spec Lemmas MeasureTheory ProbabilityTheory

/-- The normal deviates of a new row. -/
def normalDraws {k : ℕ} (z : Fin k → ℝ) : List Draw := List.ofFn fun j => normalDraw (z j)

/-- The draws of the two perturbations: none if nothing can be born or die, otherwise for a birth those of the place
(`pre`) and then a normal deviate for each parameter, for a death the index. -/
def nearDraws {Ω : Type} {k : ℕ} (sp : Space) (pre : ℕ → Ω → List Draw)
    (i : Fin 2) (s : PSState) (θ : ℕ × (Ω × (Fin k → ℝ))) : List Draw :=
  if i = 0 then if s.n = sp.info.hi then [] else pre θ.1 θ.2.1 ++ normalDraws θ.2.2
  else if s.n = sp.info.lo then [] else [indexDraw θ.1]

/-- The law of the draws: an index, what leads to the site, and a standard normal deviate for each parameter. -/
noncomputable def nearDrawsLaw {Ω : Type} [MeasurableSpace Ω] (k : ℕ) (hi : ℕ) (μ : Measure Ω) :
    Measure (ℕ × (Ω × (Fin k → ℝ))) :=
  (uniformNat hi.factorial).prod (μ.prod (Measure.pi fun _ => gaussianReal 0 1))

/-- What is used of the rows: their sites are in general position, in the order that the class keeps, and in the domain. -/
def GoodRows {P : Type} {k : ℕ} (d : P → P → ℝ) (ok : List P → Prop) (dom : Set P) (l : List (P × (Fin k → ℝ))) : Prop :=
  Generic d (l.map Prod.fst) ∧ ok (l.map Prod.fst) ∧ ∀ r ∈ l, r.1 ∈ dom

/-- What is used of a birth and a death. -/
structure NearSteps {P Ω : Type} [MeasurableSpace P] [MeasurableSpace Ω] {k : ℕ} (sp : Space) (prs : Fin k → Prior)
    (col : List P → List (String × PVal)) (d : P → P → ℝ) (ok : List P → Prop) (dom : Set P) (μ : Measure Ω) (site : Ω → P)
    (pre : ℕ → Ω → List Draw) (std : Fin k → P → ℝ) (dens : Fin k → P → ℝ → ℝ) : Prop where
  birth : ∀ l s, Holds col prs l s → GoodRows d ok dom l → l.length ≠ sp.info.hi → l ≠ [] → ∀ᵐ ω ∂μ, ∀ (m : ℕ) (z : Fin k → ℝ),
    ∃ i s', Holds col prs (listInsert l i (nearRow d std site (ofRows l) (ω, z))) s' ∧
      GoodRows d ok dom (listInsert l i (nearRow d std site (ofRows l) (ω, z))) ∧
      ∀ rest, sp.birth s (pre m ω ++ normalDraws z ++ rest) =
        (.ok (s', logOf (priorDens dens (nearRow d std site (ofRows l) (ω, z)) /
          nearDens d std (ofRows l) (nearRow d std site (ofRows l) (ω, z)))), rest)
  birth_end : ∀ l s, Holds col prs l s → l.length = sp.info.hi → ∃ s', Holds col prs l s' ∧
      ∀ rest, sp.birth s rest = (.ok (s', .ninf), rest)
  death : ∀ l s, Holds col prs l s → GoodRows d ok dom l → l.length ≠ sp.info.lo → 2 ≤ l.length → ∀ m r,
    l[m % l.length]? = some r → ∃ s', Holds col prs (l.eraseIdx (m % l.length)) s' ∧
      GoodRows d ok dom (l.eraseIdx (m % l.length)) ∧ 0 < nearDens d std (ofRows (l.eraseIdx (m % l.length))) r ∧
      ∀ rest, sp.death s (indexDraw m :: rest) = (.ok (s', (PyF.fin 0).add
        (logOf (priorDens dens r / nearDens d std (ofRows (l.eraseIdx (m % l.length))) r)).neg), rest)
  death_end : ∀ l s, Holds col prs l s → l.length = sp.info.lo → ∃ s', Holds col prs l s' ∧
      ∀ rest, sp.death s rest = (.ok (s', .ninf), rest)

/-! ### the ratios -/

theorem quotient_birth {R p q : ℝ} (hp : 0 ≤ p) (hR : 0 < R) (hq : 0 < q) :
    (logQuotient (p * R) (R * q)).num = logOf (p / q) := by
  unfold logQuotient logOf
  rcases hp.eq_or_lt with rfl | hp
  · rw [zero_mul, if_pos rfl, zero_div, if_neg (lt_irrefl _)]
    rfl
  · rw [if_neg (mul_pos hp hR).ne', if_pos (div_pos hp hq), mul_comm R q, mul_div_mul_right _ _ hR.ne']
    rfl

theorem quotient_death {R p q : ℝ} (hp : 0 < p) (hR : 0 < R) (hq : 0 < q) :
    (logQuotient (R * q) (p * R)).num = (PyF.fin 0).add (logOf (p / q)).neg := by
  unfold logQuotient logOf
  rw [if_neg (mul_pos hR hq).ne', if_pos (div_pos hp hq), mul_comm R q, mul_div_mul_right _ _ hR.ne',
    Real.log_div hq.ne' hp.ne', Real.log_div hp.ne' hq.ne']
  change PyF.fin _ = PyF.fin _
  congr 1
  ring

section general

variable {P Ω : Type} [MeasurableSpace P] [MeasurableSpace Ω] {k : ℕ} {sp : Space} {prs : Fin k → Prior}
  {col : List P → List (String × PVal)} {d : P → P → ℝ} {ok : List P → Prop} {dom : Set P} {μ : Measure Ω} {site : Ω → P}
  {pre : ℕ → Ω → List Draw} {std : Fin k → P → ℝ} {dens : Fin k → P → ℝ → ℝ}

/-- The proposals of the two perturbations. -/
noncomputable abbrev nearScheme (lam : Measure (P × (Fin k → ℝ))) (d : P → P → ℝ) (std : Fin k → P → ℝ)
    (dens : Fin k → P → ℝ → ℝ) (μ : Measure Ω) (site : Ω → P) (lo hi : ℕ) :
    Scheme (Tuple (P × (Fin k → ℝ))) (ℕ × (Ω × (Fin k → ℝ))) 2 :=
  birthDeathFrom lam (priorDens dens) (nearDens d std) (μ.prod (Measure.pi fun _ => gaussianReal 0 1))
    (nearRow d std site) lo hi

/-- The states that are considered. -/
def NearInv (sp : Space) (prs : Fin k → Prior) (col : List P → List (String × PVal)) (d : P → P → ℝ) (ok : List P → Prop)
    (dom : Set P) (s : PSState) : Prop :=
  ∃ l, Holds col prs l s ∧ sp.info.lo ≤ l.length ∧ l.length ≤ sp.info.hi ∧ GoodRows d ok dom l

theorem near_birth_step [IsProbabilityMeasure μ] (hst : NearSteps sp prs col d ok dom μ site pre std dens)
    (h1 : 1 ≤ sp.info.lo) (hlh : sp.info.lo < sp.info.hi)
    (val : PSState → Tuple (P × (Fin k → ℝ))) (hval : ∀ l s, Holds col prs l s → val s = ofRows l)
    (lam : Measure (P × (Fin k → ℝ))) {B : Scheme (Tuple (P × (Fin k → ℝ))) (ℕ × (Ω × (Fin k → ℝ))) 2}
    (hB : B = nearScheme lam d std dens μ site sp.info.lo sp.info.hi) {s : PSState} {l : List (P × (Fin k → ℝ))}
    (hl : Holds col prs l s) (hlo : sp.info.lo ≤ l.length) (hhi : l.length ≤ sp.info.hi) (hg : GoodRows d ok dom l) :
    ∀ᵐ θ ∂B.draws, ∃ new lpr, (∀ rest, sp.birth s (nearDraws sp pre 0 s θ ++ rest) = (.ok (new, lpr), rest)) ∧
      NearInv sp prs col d ok dom new ∧ SameRows (val new) (B.move 0 (val s) θ) ∧
      (B.dens 0 (val s, B.move 0 (val s) θ) ≠ 0 →
        lpr = (logQuotient (B.dens 1 (B.move 0 (val s) θ, val s)) (B.dens 0 (val s, B.move 0 (val s) θ))).num) := by
  classical
  have hvs : val s = ofRows l := hval l s hl
  have hn : s.n = l.length := hl.1
  have hlen0 : (ofRows l).1 = l.length := rfl
  rw [hvs]
  subst hB
  simp only [from_move0, from_dens0, from_dens1]
  by_cases hend : l.length = sp.info.hi
  · obtain ⟨s', e1, e2⟩ := hst.birth_end l s hl hend
    refine .of_forall fun θ => ?_
    have hmove : addRow sp.info.hi (ofRows l) θ.1 (nearRow d std site (ofRows l) θ.2) = ofRows l := if_pos hend
    rw [hmove]
    refine ⟨s', .ninf, fun rest => ?_, ⟨l, e1, hlo, hhi, hg⟩, ?_, fun _ => ?_⟩
    · have : nearDraws sp pre 0 s θ = [] := by
        unfold nearDraws
        rw [if_pos rfl, if_pos (hn.trans hend)]
      rw [this]
      exact e2 rest
    · rw [hval l s' e1]
      exact SameRows.refl _
    · have h3 : ¬ ((ofRows l).1 = (ofRows l).1 + 1 ∨ ((ofRows l).1 = sp.info.lo ∧ (ofRows l).1 = (ofRows l).1)) := by
        rintro (h | ⟨h, -⟩) <;> omega
      rw [if_neg h3, mul_zero, zero_any]
  · have hne : l ≠ [] := by
      rintro rfl
      rw [List.length_nil] at hlo
      omega
    have hae := (Measure.quasiMeasurePreserving_fst (μ := μ)
      (ν := Measure.pi fun _ : Fin k => gaussianReal 0 1)).ae (hst.birth l s hl hg hend hne)
    have hae2 := (Measure.quasiMeasurePreserving_snd (μ := uniformNat sp.info.hi.factorial)
      (ν := μ.prod (Measure.pi fun _ : Fin k => gaussianReal 0 1))).ae hae
    refine hae2.mono fun θ hθ => ?_
    obtain ⟨m, ω, z⟩ := θ
    obtain ⟨i, s', e1, e2, e3⟩ := hθ m z
    simp only at e1 e2 e3 ⊢
    set r := nearRow d std site (ofRows l) (ω, z) with hr
    have hrows := addRow_rows (hi := sp.info.hi) (x := ofRows l) hend m r
    have hlen : (addRow sp.info.hi (ofRows l) m r).1 = l.length + 1 := by
      unfold addRow
      rw [if_neg (show (ofRows l).1 ≠ sp.info.hi from hend)]
      rfl
    rw [hlen, hlen0, gain_eq (nearDens_nonneg d std) hrows, rowsDens_cons hrows, if_neg (by omega), if_pos (.inl rfl)]
    refine ⟨s', logOf (priorDens dens r / nearDens d std (ofRows l) r), fun rest => ?_, ⟨_, e1, ?_, ?_, e2⟩, ?_, fun hdne => ?_⟩
    · have : nearDraws sp pre 0 s (m, ω, z) = pre m ω ++ normalDraws z := by
        unfold nearDraws
        rw [if_pos rfl, if_neg (by rw [hn]; exact hend)]
      rw [this]
      exact e3 rest
    · rw [length_listInsert]
      omega
    · rw [length_listInsert]
      omega
    · rw [hval _ s' e1]
      unfold SameRows
      rw [rows_ofRows]
      refine (listInsert_perm i _).trans ?_
      rw [rows_ofRows] at hrows
      exact hrows.symm
    · rw [mul_one]
      have hR : 0 < rowsDens (priorDens dens) (ofRows l) :=
        lt_of_le_of_ne (rowsDens_nonneg (priorDens_nonneg dens) _) (Ne.symm (left_ne_zero_of_mul hdne))
      have hq : 0 < nearDens d std (ofRows l) r :=
        lt_of_le_of_ne (nearDens_nonneg d std _ _) (Ne.symm (right_ne_zero_of_mul hdne))
      exact (quotient_birth (priorDens_nonneg dens r) hR hq).symm

theorem near_death_step (hst : NearSteps sp prs col d ok dom μ site pre std dens)
    (h1 : 1 ≤ sp.info.lo) (hlh : sp.info.lo < sp.info.hi)
    (val : PSState → Tuple (P × (Fin k → ℝ))) (hval : ∀ l s, Holds col prs l s → val s = ofRows l)
    (lam : Measure (P × (Fin k → ℝ))) {B : Scheme (Tuple (P × (Fin k → ℝ))) (ℕ × (Ω × (Fin k → ℝ))) 2}
    (hB : B = nearScheme lam d std dens μ site sp.info.lo sp.info.hi) {s : PSState} {l : List (P × (Fin k → ℝ))}
    (hl : Holds col prs l s) (hlo : sp.info.lo ≤ l.length) (hhi : l.length ≤ sp.info.hi) (hg : GoodRows d ok dom l) :
    ∀ᵐ θ ∂B.draws, ∃ new lpr, (∀ rest, sp.death s (nearDraws sp pre 1 s θ ++ rest) = (.ok (new, lpr), rest)) ∧
      NearInv sp prs col d ok dom new ∧ SameRows (val new) (B.move 1 (val s) θ) ∧
      (B.dens 1 (val s, B.move 1 (val s) θ) ≠ 0 →
        lpr = (logQuotient (B.dens 0 (B.move 1 (val s) θ, val s)) (B.dens 1 (val s, B.move 1 (val s) θ))).num) := by
  classical
  have hvs : val s = ofRows l := hval l s hl
  have hn : s.n = l.length := hl.1
  have hlen0 : (ofRows l).1 = l.length := rfl
  rw [hvs]
  subst hB
  simp only [from_move1, from_dens0, from_dens1]
  refine .of_forall fun θ => ?_
  obtain ⟨m, ω, z⟩ := θ
  have h10 : ¬ (1 : Fin 2) = 0 := by decide
  by_cases hend : l.length = sp.info.lo
  · obtain ⟨s', e1, e2⟩ := hst.death_end l s hl hend
    have hmove : removeRow sp.info.lo sp.info.hi (ofRows l) m = ofRows l := if_pos (.inl hend)
    simp only [hmove]
    refine ⟨s', .ninf, fun rest => ?_, ⟨l, e1, hlo, hhi, hg⟩, ?_, fun _ => ?_⟩
    · have : nearDraws sp pre 1 s (m, ω, z) = [] := by
        unfold nearDraws
        rw [if_neg h10, if_pos (hn.trans hend)]
      rw [this]
      exact e2 rest
    · rw [hval l s' e1]
      exact SameRows.refl _
    · rw [if_neg (by rw [hlen0]; omega), gain_dim (by omega), mul_zero, zero_any]
  · have h2 : 2 ≤ l.length := by omega
    have h0 : l.length ≠ 0 := by omega
    have hmod : m % l.length < l.length := Nat.mod_lt _ (Nat.pos_of_ne_zero h0)
    obtain ⟨s', e1, e2, hq, e3⟩ := hst.death l s hl hg hend h2 m _ (List.getElem?_eq_getElem hmod)
    have hperm := removeRow_rows (lo := sp.info.lo) (hi := sp.info.hi) (x := ofRows l) hend hhi h0 m
    rw [rows_ofRows, hlen0] at hperm
    set y := removeRow sp.info.lo sp.info.hi (ofRows l) m with hy
    have hlen : l.length = y.1 + 1 := by
      have := hperm.length_eq
      rw [List.length_ofFn, List.length_eraseIdx_of_lt hmod] at this
      omega
    have hrows : (List.ofFn (ofRows l).2).Perm (l[m % l.length] :: List.ofFn y.2) := by
      rw [rows_ofRows]
      exact (eraseIdx_perm hmod).trans (hperm.symm.cons _)
    have hsame : SameRows (ofRows (l.eraseIdx (m % l.length))) y := by
      unfold SameRows
      rw [rows_ofRows]
      exact hperm.symm
    have hqs : nearDens d std (ofRows (l.eraseIdx (m % l.length))) = nearDens d std y := by
      funext r
      unfold nearDens
      exact Finset.prod_congr rfl fun j _ => by rw [center_same hsame]
    rw [hqs] at e3 hq
    rw [hlen0, if_pos (.inl hlen), if_neg (by omega), gain_eq (nearDens_nonneg d std) hrows, rowsDens_cons hrows]
    refine ⟨s', (PyF.fin 0).add (logOf (priorDens dens l[m % l.length] / nearDens d std y l[m % l.length])).neg,
      fun rest => ?_, ⟨_, e1, ?_, ?_, e2⟩, ?_, fun hdne => ?_⟩
    · have : nearDraws sp pre 1 s (m, ω, z) = [indexDraw m] := by
        unfold nearDraws
        rw [if_neg h10, if_neg (by rw [hn]; exact hend)]
      rw [this]
      exact e3 rest
    · rw [List.length_eraseIdx_of_lt hmod]
      omega
    · rw [List.length_eraseIdx_of_lt hmod]
      omega
    · rw [hval _ s' e1]
      exact hsame
    · rw [mul_one] at hdne ⊢
      have hR : 0 < rowsDens (priorDens dens) y :=
        lt_of_le_of_ne (rowsDens_nonneg (priorDens_nonneg dens) _) (Ne.symm (right_ne_zero_of_mul hdne))
      have hp : 0 < priorDens dens l[m % l.length] :=
        lt_of_le_of_ne (priorDens_nonneg dens _) (Ne.symm (left_ne_zero_of_mul hdne))
      exact (quotient_death hp hR hq).symm

theorem near_reports [IsProbabilityMeasure μ] (hst : NearSteps sp prs col d ok dom μ site pre std dens)
    (h1 : 1 ≤ sp.info.lo) (hlh : sp.info.lo < sp.info.hi)
    (val : PSState → Tuple (P × (Fin k → ℝ))) (hval : ∀ l s, Holds col prs l s → val s = ofRows l)
    (logLik : Tuple (P × (Fin k → ℝ)) → ℝ) (T : ℝ) (lam : Measure (P × (Fin k → ℝ))) :
    Reports (birthDeathChain sp val logLik) (nearScheme lam d std dens μ site sp.info.lo sp.info.hi)
      logLik T (nearDraws sp pre) val (NearInv sp prs col d ok dom) SameRows where
  likelihood := fun s new hs hn => ⟨s, new, rfl, hs, hn, SameRows.refl _, SameRows.refl _⟩
  proposal := by
    rintro ⟨i, hi⟩ s ⟨l, hl, hlo, hhi, hg⟩
    have hi2 : i < 2 := hi
    rcases i with _ | _ | i
    · exact near_birth_step hst h1 hlh val hval lam rfl hl hlo hhi hg
    · exact near_death_step hst h1 hlh val hval lam rfl hl hlo hhi hg
    · omega

theorem near_balance {E : Type} [MeasurableEq P] [MeasurableEq (P × (Fin k → ℝ))] {σs : Measure P} [IsProbabilityMeasure σs] [IsProbabilityMeasure μ]
    (hst : NearSteps sp prs col d ok dom μ site pre std dens) (h1 : 1 ≤ sp.info.lo) (hlh : sp.info.lo < sp.info.hi)
    (hdm : MeasurableSet dom) (hs : Measurable site) (hσ : μ.map site = σs) (hdom : ∀ᵐ x ∂σs, x ∈ dom)
    (hdist : Measurable fun z : P × P => d z.1 z.2) (hnull : NullSites d σs)
    {loc : P → Pos} (hd : ∀ j, HasDensity (prs j) loc dom (dens j)) (hstd : ∀ j, Measurable (std j))
    (hpos : ∀ j, ∀ s ∈ dom, 0 < std j s)
    (val : PSState → Tuple (P × (Fin k → ℝ))) (hval : ∀ l s, Holds col prs l s → val s = ofRows l)
    (logLik : Tuple (P × (Fin k → ℝ)) → ℝ) (hℓ : Measurable logLik) (hℓr : ∀ x y, SameRows x y → logLik x = logLik y)
    (T : ℝ) (state : Tuple (P × (Fin k → ℝ)) → Chain PSState Unit E)
    (hstate : ∀ x, ∃ l, l.Perm (List.ofFn x.2) ∧ ok (l.map Prod.fst) ∧ Holds col prs l (state x).cur)
    (htemp : ∀ x, (state x).temp = T) :
    DetailedBalanceUpTo SameRows (posterior (transPrior (rowLaw σs dens) sp.info.lo sp.info.hi) logLik T)
      (fun x => IterationLaw (birthDeathChain sp val logLik) (nearDraws sp pre) (nearDrawsLaw k sp.info.hi μ)
        val (state x)) ∧
    PreservesUpTo SameRows (posterior (transPrior (rowLaw σs dens) sp.info.lo sp.info.hi) logLik T)
      (fun x => IterationLaw (birthDeathChain sp val logLik) (nearDraws sp pre) (nearDrawsLaw k sp.info.hi μ)
        val (state x)) := by
  have hsam := fun j => HasDensity.sampled (hd j)
  choose hm value hvm hrun hlaw using hsam
  have hrow := row_law hm hs hσ hdom hvm hlaw
  have hnew : Measurable fun ω : Ω × (Fin k → ℝ) => (site ω.1, fun j => value j (site ω.1) (ω.2 j)) := by
    refine (hs.comp measurable_fst).prodMk (measurable_pi_lambda _ fun j => ?_)
    exact (hvm j).comp ((hs.comp measurable_fst).prodMk ((measurable_pi_apply j).comp measurable_snd))
  have hprob : IsProbabilityMeasure (rowLaw σs dens) := by
    rw [← hrow]
    exact Measure.isProbabilityMeasure_map hnew.aemeasurable
  have hprob' := hprob
  rw [rowLaw_eq] at hprob'
  have hw : ∀ w ∈ (birthDeathChain sp val logLik).weights, 0 ≤ w := by simp [birthDeathChain]
  have hq : Measurable fun z : Tuple (P × (Fin k → ℝ)) × (P × (Fin k → ℝ)) => nearDens d std z.1 z.2 :=
    nearDens_meas hdist hstd
  have hcs : ∀ x x' : Tuple (P × (Fin k → ℝ)), SameRows x x' → center d x = center d x' := fun x x' h => by
    funext s j
    exact center_same h s j
  have hae : ∀ᵐ x ∂transPrior (rowLaw σs dens) sp.info.lo sp.info.hi,
      Generic d ((List.ofFn x.2).map Prod.fst) ∧ ∀ r ∈ List.ofFn x.2, r.1 ∈ dom := by
    refine ae_rows (rowLaw σs dens) (G := fun l : List (P × (Fin k → ℝ)) => Generic d (l.map Prod.fst) ∧ ∀ r ∈ l, r.1 ∈ dom)
      ⟨⟨List.nodup_nil, fun a ha => absurd ha (List.not_mem_nil)⟩, fun r hr => absurd hr (List.not_mem_nil)⟩ ?_ ?_ _ _
    · intro n
      have hf : Measurable fun v : Fin n → P × (Fin k → ℝ) => fun i => (v i).1 :=
        measurable_pi_lambda _ fun i => measurable_fst.comp (measurable_pi_apply i)
      have e1 := hf (generic_meas hdist n)
      have e2 : MeasurableSet {v : Fin n → P × (Fin k → ℝ) | ∀ i, (v i).1 ∈ dom} := by
        have : {v : Fin n → P × (Fin k → ℝ) | ∀ i, (v i).1 ∈ dom} = ⋂ i, {v | (v i).1 ∈ dom} := by
          ext v
          simp only [Set.mem_iInter, Set.mem_ofPred_eq]
        rw [this]
        exact .iInter fun i => (measurable_fst.comp (measurable_pi_apply (X := fun _ => P × (Fin k → ℝ)) i)) hdm
      refine (congrArg MeasurableSet (Set.ext fun v => ?_)).mp (e1.inter e2)
      simp only [Set.mem_inter_iff, Set.mem_preimage, Set.mem_ofPred_eq, List.map_ofFn, List.forall_mem_ofFn_iff]
      rfl
    · rintro l ⟨hg, hin⟩
      have e1 : ∀ᵐ s ∂σs, Generic d (s :: l.map Prod.fst) ∧ s ∈ dom := (generic_cons hnull hg).and hdom
      have e2 : ∀ᵐ r ∂(σs.prod (volume : Measure (Fin k → ℝ))), Generic d (r.1 :: l.map Prod.fst) ∧ r.1 ∈ dom :=
        Measure.quasiMeasurePreserving_fst.ae e1
      rw [rowLaw_eq]
      refine (withDensity_absolutelyContinuous _ _).ae_le (e2.mono fun r hr => ⟨hr.1, fun r' hr' => ?_⟩)
      rcases List.mem_cons.1 hr' with rfl | h
      · exact hr.2
      · exact hin r' h
  have key := C09_up_to (E := E) (birthDeathChain sp val logLik) rfl hw (by simp [birthDeathChain])
    (nearScheme (σs.prod volume) d std dens μ site sp.info.lo sp.info.hi)
    (birthDeathFrom_ok (priorDens_meas hm) (priorDens_nonneg dens) hq (nearDens_nonneg d std) (nearRow_meas hdist hstd hs)
      (nearRow_law hdist hstd hs hσ hdom hpos) hlh rfl) logLik hℓ T (nearDraws sp pre) val
    (NearInv sp prs col d ok dom) SameRows SameRows.refl
    (birthDeathFrom_lumps (nearDens_nonneg d std)
      (fun x x' h => by
        funext r
        unfold nearDens
        rw [hcs x x' h])
      fun x x' h => by
        funext ω
        unfold nearRow
        rw [hcs x x' h])
    hℓr (near_reports hst h1 hlh val hval logLik T _) state ?_ htemp
  · have hpr : (nearScheme (σs.prod volume) d std dens μ site sp.info.lo sp.info.hi).prior =
        transPrior (rowLaw σs dens) sp.info.lo sp.info.hi := by
      rw [rowLaw_eq]
      rfl
    rw [hpr] at key
    exact key
  · change ∀ᵐ x ∂transPrior _ _ _, _
    rw [← rowLaw_eq]
    refine ((transPrior_dim _ _ _).and hae).mono fun x hx => ?_
    obtain ⟨l, e1, e2, e3⟩ := hstate x
    have hlen : l.length = x.1 := by rw [e1.length_eq, List.length_ofFn]
    refine ⟨⟨l, e3, by rw [hlen]; exact hx.1.1, by rw [hlen]; exact hx.1.2, hx.2.1.perm (e1.map _), e2,
      fun r hr => hx.2.2 r (e1.subset hr)⟩, ?_⟩
    rw [hval _ _ e3]
    unfold SameRows
    rw [rows_ofRows]
    exact e1.symm

end general

/-! ### the two classes -/

section classes

variable {P : Type} {k : ℕ}

/-- The parameters with their values, the new ones, and the draws. -/
def ncols (prs : Fin k → Prior) (l : List (P × (Fin k → ℝ))) (z v : Fin k → ℝ) : List Col :=
  List.ofFn fun j => ⟨prs j, l.map fun r => r.2 j, v j, normalDraw (z j)⟩

theorem ncols_old (prs : Fin k → Prior) (l : List (P × (Fin k → ℝ))) (z v : Fin k → ℝ) : (ncols prs l z v).map Col.old =
    List.ofFn fun j => ((prs j).name, .arr (.vec (l.map fun r => r.2 j))) := by
  unfold ncols
  rw [List.map_ofFn]
  rfl

theorem ncols_ins (prs : Fin k → Prior) (l : List (P × (Fin k → ℝ))) (z v : Fin k → ℝ) (i : ℕ) (x : P) :
    (ncols prs l z v).map (Col.ins i) =
      List.ofFn fun j => ((prs j).name, .arr (.vec ((listInsert l i (x, v)).map fun r => r.2 j))) := by
  unfold ncols
  rw [List.map_ofFn]
  congr 1
  funext j
  rw [listInsert_map]
  rfl

theorem ncols_del (prs : Fin k → Prior) (l : List (P × (Fin k → ℝ))) (z v : Fin k → ℝ) (i : ℕ) :
    (ncols prs l z v).map (Col.del i) =
      List.ofFn fun j => ((prs j).name, .arr (.vec ((l.eraseIdx i).map fun r => r.2 j))) := by
  unfold ncols
  rw [List.map_ofFn]
  congr 1
  funext j
  rw [← List.eraseIdx_map]
  rfl

theorem ncols_nodup {sp : Space} {prs : Fin k → Prior} (h : OnlyPriors sp prs) (l : List (P × (Fin k → ℝ)))
    (z v : Fin k → ℝ) : ("discretization" :: (ncols prs l z v).map fun c => c.prior.name).Nodup := by
  have e : ((ncols prs l z v).map fun c => c.prior.name) = List.ofFn fun j => (prs j).name := by
    unfold ncols
    rw [List.map_ofFn]
    rfl
  rw [e]
  refine List.nodup_cons.2 ⟨fun hc => ?_, List.nodup_ofFn.2 h.inj⟩
  obtain ⟨j, hj⟩ := List.mem_ofFn.1 hc
  exact h.disc j hj

theorem ncols_length {prs : Fin k → Prior} {l : List (P × (Fin k → ℝ))} {z v : Fin k → ℝ} {c : Col}
    (h : c ∈ ncols prs l z v) : c.col.length = l.length := by
  obtain ⟨j, rfl⟩ := List.mem_ofFn.1 h
  exact List.length_map ..

/-- The values of a parameter in a state. -/
theorem holds_get {sp : Space} {prs : Fin k → Prior} (hp : OnlyPriors sp prs) {disc : List P → PVal}
    {l : List (P × (Fin k → ℝ))} {s : PSState} (hl : Holds (fun xs => [("discretization", disc xs)]) prs l s) :
    s.get "discretization" = some (disc (l.map Prod.fst)) ∧
      ∀ j, s.get (prs j).name = some (.arr (.vec (l.map fun r => r.2 j))) := by
  obtain ⟨g1, g2⟩ := get_col (s := s) (v0 := disc (l.map Prod.fst)) (cs := ncols prs l (fun _ => 0) fun _ => 0)
    (by rw [hl.2, ncols_old]; rfl) (ncols_nodup hp l _ _)
  exact ⟨g1, fun j => g2 ⟨prs j, l.map fun r => r.2 j, 0, normalDraw 0⟩ (List.mem_ofFn.2 ⟨j, rfl⟩)⟩

theorem near_index {d : P → P → ℝ} {x : P} {l : List (P × (Fin k → ℝ))} (h : Generic d (x :: l.map Prod.fst)) (hl : l ≠ []) :
    ∃ i : Fin l.length, ∀ i', i' ≠ i → d (l.get i).1 x < d (l.get i').1 x := by
  obtain ⟨i, hi⟩ := h.nearest (by simpa using hl)
  refine ⟨i.cast (List.length_map ..), fun i' hi' => ?_⟩
  have := hi (i'.cast (List.length_map ..).symm) fun hc => hi' (by rw [← hc]; rfl)
  simpa using this

theorem weights_prod (d : P → P → ℝ) (std : Fin k → P → ℝ) (dens : Fin k → P → ℝ → ℝ) (y : Tuple (P × (Fin k → ℝ)))
    (r : P × (Fin k → ℝ)) :
    (List.ofFn fun j => max (dens j r.1 (r.2 j)) 0 / normalPDF (center d y r.1 j) (std j r.1) (r.2 j)).prod =
      priorDens dens r / nearDens d std y r := by
  unfold priorDens nearDens
  rw [List.prod_ofFn, Finset.prod_div_distrib]

/-- The values of a new site. -/
theorem newborn_near [MeasurableSpace P] {sp : Space} {prs : Fin k → Prior} (hfp : sp.info.fromPrior = false)
    (hp : OnlyPriors sp prs) {disc : List P → PVal} {loc : P → Pos} {dom : Set P} {dens : Fin k → P → ℝ → ℝ}
    (hd : ∀ j, HasDensity (prs j) loc dom (dens j)) {std : Fin k → P → ℝ}
    (hstd : ∀ j, ∀ x ∈ dom, (prs j).stdBirth.get (loc x) = .ok (std j x)) (hpos : ∀ j, ∀ x ∈ dom, 0 < std j x)
    {d : P → P → ℝ} {l : List (P × (Fin k → ℝ))} {s : PSState}
    (hl : Holds (fun xs => [("discretization", disc xs)]) prs l s) {x : P} (hx : x ∈ dom) {i : Fin l.length}
    (hi : ∀ i', i' ≠ i → d (l.get i).1 x < d (l.get i').1 x)
    (hnear : nearest sp.info.kind (some (disc (l.map Prod.fst))) (loc x) = .ok (i : ℕ)) (z v : Fin k → ℝ)
    (hv : ∀ j, v j = center d (ofRows l) x j + z j * std j x) (rest : List Draw) :
    sp.newborn (loc x) s (normalDraws z ++ rest) =
      (.ok ((ncols prs l z v).map fun c => (c.prior.name, NVal.num c.new),
        logOf (priorDens dens (x, v) / nearDens d std (ofRows l) (x, v))), rest) := by
  obtain ⟨g1, g2⟩ := holds_get hp hl
  have hc : ∀ j, center d (ofRows l) x j = (l.get i).2 j := fun j => center_eq (x := ofRows l) (i := i) hi j
  set ws : List (Col × ℝ) := List.ofFn fun j => (⟨prs j, l.map fun r => r.2 j, v j, normalDraw (z j)⟩,
    max (dens j x (v j)) 0 / normalPDF (center d (ofRows l) x j) (std j x) (v j)) with hws
  have h := newbornFromNeighbour_run s i (loc x) ws 1 zero_le_one (by
    intro w hw
    obtain ⟨j, rfl⟩ := List.mem_ofFn.1 hw
    refine ⟨div_nonneg (le_max_right _ _) (normalPDF_nonneg' _ _ _), (l.get i).2 j, ?_, fun rest => ?_⟩
    · refine numAt_ok.2 ⟨_, g2 j, ?_⟩
      rw [List.getElem?_map, List.getElem?_eq_getElem i.2]
      rfl
    · have := fromNeighbour_run (hd j) hx (hstd j x hx) (hpos j x hx) ((l.get i).2 j) (z j) rest
      rw [← hc j, ← hv j] at this
      rw [← hc j]
      exact this) rest
  have e1 : (ws.map fun w => (w.1.prior.name, Param.prior w.1.prior)) = sp.params.toList := by
    rw [hp.params, hws, List.map_ofFn]
    rfl
  have e2 : (ws.map fun w => w.1.draw) = normalDraws z := by
    rw [hws, List.map_ofFn]
    rfl
  have e3 : (ws.map fun w => (w.1.prior.name, NVal.num w.1.new)) =
      (ncols prs l z v).map fun c => (c.prior.name, NVal.num c.new) := by
    unfold ncols
    rw [hws, List.map_ofFn, List.map_ofFn]
    rfl
  have e4 : (ws.map Prod.snd).prod = priorDens dens (x, v) / nearDens d std (ofRows l) (x, v) := by
    rw [hws, List.map_ofFn]
    exact weights_prod d std dens (ofRows l) (x, v)
  rw [e1, e2, e3, e4, one_mul, logOf_one] at h
  unfold Space.newborn
  rw [hfp, if_neg Bool.false_ne_true, g1, hnear]
  exact (M.bind_of rfl).trans h

/-- The ratio of a death. -/
theorem deathRatio_near [MeasurableSpace P] {sp : Space} {prs : Fin k → Prior} (hfp : sp.info.fromPrior = false)
    (hp : OnlyPriors sp prs) {arr : List P → Arr} {loc : P → Pos} (hloc : ∀ xs, (arr xs).positions = xs.map loc)
    {dom : Set P} {dens : Fin k → P → ℝ → ℝ}
    (hd : ∀ j, HasDensity (prs j) loc dom (dens j)) {std : Fin k → P → ℝ}
    (hstd : ∀ j, ∀ x ∈ dom, (prs j).stdBirth.get (loc x) = .ok (std j x)) (hpos : ∀ j, ∀ x ∈ dom, 0 < std j x)
    {d : P → P → ℝ} {l : List (P × (Fin k → ℝ))} {s s' : PSState} {m : ℕ} (hm : m < l.length)
    (hl : Holds (fun xs => [("discretization", .arr (arr xs))]) prs l s)
    (hl' : Holds (fun xs => [("discretization", .arr (arr xs))]) prs (l.eraseIdx m) s') (hx : l[m].1 ∈ dom)
    {i : Fin (l.eraseIdx m).length}
    (hi : ∀ i', i' ≠ i → d ((l.eraseIdx m).get i).1 l[m].1 < d ((l.eraseIdx m).get i').1 l[m].1)
    (hnear : nearest sp.info.kind (some (.arr (arr ((l.eraseIdx m).map Prod.fst)))) (loc l[m].1) = .ok (i : ℕ)) :
    sp.deathRatio s s' m = .ok ((PyF.fin 0).add
      (logOf (priorDens dens l[m] / nearDens d std (ofRows (l.eraseIdx m)) l[m])).neg) := by
  obtain ⟨g1, g2⟩ := holds_get hp (disc := fun xs => .arr (arr xs)) hl
  obtain ⟨g1', g2'⟩ := holds_get hp (disc := fun xs => .arr (arr xs)) hl'
  have hc : ∀ j, center d (ofRows (l.eraseIdx m)) l[m].1 j = ((l.eraseIdx m).get i).2 j := fun j =>
    center_eq (x := ofRows (l.eraseIdx m)) (i := i) hi j
  have hr := pointRatio_of (near := nearOf) (old := s') (new := s) (i := m) (j := i) (pos := loc l[m].1) (ps := sp.params)
    (ws := List.ofFn fun j => (prs j, max (dens j l[m].1 (l[m].2 j)) 0 /
      normalPDF (center d (ofRows (l.eraseIdx m)) l[m].1 j) (std j l[m].1) (l[m].2 j)))
    (by rw [hp.params, List.map_ofFn]; rfl) (by
    intro w hw
    obtain ⟨j, rfl⟩ := List.mem_ofFn.1 hw
    refine ⟨div_nonneg (le_max_right _ _) (normalPDF_nonneg' _ _ _), l[m].2 j, ((l.eraseIdx m).get i).2 j, std j l[m].1,
      logOf (dens j l[m].1 (l[m].2 j)), ⟨_, g2 j, ?_⟩, ⟨_, g2' j, ?_⟩, hstd j _ hx, hpos j _ hx, HasDensity.log (hd j) hx _, ?_⟩
    · rw [List.getElem?_map, List.getElem?_eq_getElem hm]
      rfl
    · rw [List.getElem?_map, List.getElem?_eq_getElem i.2]
      rfl
    · rw [logOf_div (normalPDF_pos' (hpos j _ hx) _), hc j])
  have e4 := weights_prod d std dens (ofRows (l.eraseIdx m)) l[m]
  rw [List.map_ofFn] at hr
  change PointRatio nearOf sp.params s' s m i (loc l[m].1) (logOf (List.ofFn fun j => max (dens j l[m].1 (l[m].2 j)) 0 /
      normalPDF (center d (ofRows (l.eraseIdx m)) l[m].1 j) (std j l[m].1) (l[m].2 j)).prod) at hr
  rw [e4] at hr
  unfold Space.deathRatio PSState.sites
  rw [hfp, if_neg Bool.false_ne_true, g1, g1']
  change (match (arr (l.map Prod.fst)).positions[m]? with
    | none => throw PyErr.indexError
    | some pos => do
      let inear ← nearest sp.info.kind (some (.arr (arr ((l.eraseIdx m).map Prod.fst)))) pos
      sp.params.deathPoint s s' m inear pos (.fin 0)) = _
  rw [hloc, List.getElem?_map, List.getElem?_map, List.getElem?_eq_getElem hm]
  simp only [Option.map_some]
  rw [hnear]
  exact deathPoint_ratio sp.params s' s m i (loc l[m].1) _ _ hr

theorem nearDens_pos {d : P → P → ℝ} {std : Fin k → P → ℝ} {dom : Set P} (hpos : ∀ j, ∀ x ∈ dom, 0 < std j x)
    {r : P × (Fin k → ℝ)} (hr : r.1 ∈ dom) (x : Tuple (P × (Fin k → ℝ))) : 0 < nearDens d std x r :=
  Finset.prod_pos fun j _ => normalPDF_pos' (hpos j _ hr) _

theorem goodRows_erase {d : P → P → ℝ} {ok : List P → Prop} (hok : ∀ xs i, ok xs → ok (xs.eraseIdx i)) {dom : Set P}
    {l : List (P × (Fin k → ℝ))} (h : GoodRows d ok dom l) {m : ℕ} (hm : m < l.length) :
    GoodRows d ok dom (l.eraseIdx m) ∧ Generic d (l[m].1 :: (l.eraseIdx m).map Prod.fst) := by
  have hp := (eraseIdx_perm hm).map Prod.fst
  have hg : Generic d (l[m].1 :: (l.eraseIdx m).map Prod.fst) := h.1.perm hp.symm
  refine ⟨⟨hg.tail, ?_, fun r hr => h.2.2 r ((List.eraseIdx_sublist ..).subset hr)⟩, hg⟩
  rw [← List.eraseIdx_map]
  exact hok _ _ h.2.1

theorem near_steps_line {sp : Space} {prs : Fin k → Prior} {v : Vor1} (hk : sp.info.kind = .vor1 v)
    (hfp : sp.info.fromPrior = false) (hp : OnlyPriors sp prs) (hv : v.vmin < v.vmax) {dens : Fin k → ℝ → ℝ → ℝ}
    (hd : ∀ j, HasDensity (prs j) .one (Set.Icc v.vmin v.vmax) (dens j)) {std : Fin k → ℝ → ℝ}
    (hstd : ∀ j, ∀ x ∈ Set.Icc v.vmin v.vmax, (prs j).stdBirth.get (.one x) = .ok (std j x))
    (hpos : ∀ j, ∀ x ∈ Set.Icc v.vmin v.vmax, 0 < std j x) :
    NearSteps sp prs lineSites lineDist (fun xs => xs.Pairwise (· ≤ ·)) (Set.Icc v.vmin v.vmax) unitLaw (lineSite v)
      (fun _ u => [unitDraw u]) std dens := by
  have hdk : sp.info.kind.isDisc = true := by rw [hk]; rfl
  have hkd : ∀ s, sp.info.kind.withKd s = .ok s := by
    intro s
    rw [hk]
    rfl
  have hnear : ∀ (l : List (ℝ × (Fin k → ℝ))) (x : ℝ), (l.map Prod.fst).Pairwise (· ≤ ·) → ∀ i : Fin l.length,
      (∀ i', i' ≠ i → lineDist (l.get i).1 x < lineDist (l.get i').1 x) →
      nearest sp.info.kind (some (.arr (.vec (l.map Prod.fst)))) (.one x) = .ok (i : ℕ) := by
    intro l x hs i hi
    rw [hk]
    refine nearest_line hs (i := i.cast (List.length_map ..).symm) fun i' hi' => ?_
    have := hi (i'.cast (List.length_map ..)) fun hc => hi' (by rw [← hc]; rfl)
    simpa using this
  have hin : ∀ u, lineSite v u ∈ Set.Icc v.vmin v.vmax := by
    intro u
    have := (unitDraw u).hu
    unfold lineSite
    constructor
    · nlinarith [mul_nonneg (sub_nonneg.2 hv.le) this.1]
    · nlinarith [mul_le_mul_of_nonneg_left this.2.le (sub_nonneg.2 hv.le)]
  refine ⟨?_, ?_, ?_, ?_⟩
  · intro l s hl hg hn hne
    have hgen : ∀ᵐ u ∂unitLaw, Generic lineDist (lineSite v u :: l.map Prod.fst) := by
      have h1 := generic_cons (nullSites_line (cond_absolutelyContinuous (s := Set.Icc v.vmin v.vmax))) hg.1
      rw [← lineSite_law hv] at h1
      exact ae_of_ae_map (lineSite_meas v).aemeasurable h1
    refine hgen.mono fun u hu m z => ?_
    obtain ⟨i0, hi0⟩ := near_index hu hne
    set r := nearRow lineDist std (lineSite v) (ofRows l) (u, z) with hr
    have hrun := vorBirth_line_of (s := s) (cs := ncols prs l z r.2) hk (ncols_nodup hp l z r.2) (xs := l.map Prod.fst)
      (by rw [hl.2, ncols_old]; rfl) (by rw [List.length_map, hl.1])
      (fun c hc => (ncols_length hc).trans hl.1.symm) (unitDraw u)
      (newborn_near (disc := fun xs => .arr (.vec xs)) (loc := .one) hfp hp hd hstd hpos hl (hin u) hi0
        (hnear l _ hg.2.1 i0 hi0) z r.2 fun j => rfl) rfl
    set i := bisectLeft (l.map Prod.fst) (lineSite v u) 0 (l.map Prod.fst).length with hid
    refine ⟨i, .mk (s.n + 1) (("discretization", .arr (.vec (listInsert (l.map Prod.fst) i (lineSite v u)))) ::
        (ncols prs l z r.2).map (Col.ins i)) none, ⟨?_, ?_⟩, ⟨?_, ?_, ?_⟩,
      fun rest => disc_birth hdk (by rw [hl.1]; exact hn) (hrun rest) (hkd _)⟩
    · rw [length_listInsert, ← hl.1]
      rfl
    · rw [listInsert_map]
      have := ncols_ins prs l z r.2 i (lineSite v u)
      change ("discretization", _) :: (ncols prs l z r.2).map (Col.ins i) = _
      rw [this]
      rfl
    · exact hu.perm ((listInsert_perm i r).map _)
    · rw [listInsert_map]
      exact sorted_insert hg.2.1
    · intro r' hr'
      rcases List.mem_cons.1 ((listInsert_perm i r).subset hr') with rfl | h
      · exact hin u
      · exact hg.2.2 r' h
  · exact fun l s hl hn => ⟨s, hl, fun rest => disc_birth_end hdk (hl.1.trans hn) (hkd s) rest⟩
  · intro l s hl hg hn h2 m r hr
    have h0 : l.length ≠ 0 := by omega
    have hmod : m % l.length < l.length := Nat.mod_lt _ (Nat.pos_of_ne_zero h0)
    obtain rfl : l[m % l.length] = r := by
      rw [List.getElem?_eq_getElem hmod] at hr
      injection hr
    obtain ⟨hg', hgen⟩ := goodRows_erase (fun xs i h => h.sublist (List.eraseIdx_sublist ..)) hg hmod
    have hx := hg.2.2 _ (List.getElem_mem hmod)
    have hne : l.eraseIdx (m % l.length) ≠ [] := by
      intro hc
      have := congrArg List.length hc
      rw [List.length_eraseIdx_of_lt hmod, List.length_nil] at this
      omega
    obtain ⟨i0, hi0⟩ := near_index hgen hne
    have hnew : Holds lineSites prs (l.eraseIdx (m % l.length)) (.mk (s.n - 1)
        (("discretization", .arr (.vec ((l.map Prod.fst).eraseIdx (m % l.length)))) ::
        (ncols prs l (fun _ => 0) fun _ => 0).map (Col.del (m % l.length))) none) := by
      refine ⟨?_, ?_⟩
      · rw [List.length_eraseIdx_of_lt hmod, ← hl.1]
        rfl
      · rw [← ncols_del prs l (fun _ => 0) fun _ => 0, ← List.eraseIdx_map]
        rfl
    have hrun := vorDeath_of (s := s) (cs := ncols prs l (fun _ => 0) fun _ => 0)
      (v0 := .arr (.vec (l.map Prod.fst))) (v0' := .arr (.vec ((l.map Prod.fst).eraseIdx (m % l.length))))
      (m := m % l.length) (by rw [hl.2, ncols_old]; rfl) (fun c hc => (ncols_length hc).trans hl.1.symm)
      (by rw [hl.1]; exact h0) (indexDraw m) (by rw [hl.1]; rfl) (delOp_num (by rw [List.length_map]; exact hmod))
      (by rw [len_vec, List.length_eraseIdx_of_lt (by rw [List.length_map]; exact hmod), List.length_map, hl.1])
      ⟨_, rfl⟩ (deathRatio_near (arr := .vec) (loc := .one) hfp hp (fun xs => rfl) hd hstd hpos hmod hl hnew hx hi0
        (hnear _ _ hg'.2.1 i0 hi0))
    exact ⟨_, hnew, hg', nearDens_pos hpos hx _, fun rest => disc_death hdk (by rw [hl.1]; exact hn) (hrun rest) (hkd _)⟩
  · exact fun l s hl hn => ⟨s, hl, fun rest => disc_death_end hdk (hl.1.trans hn) (hkd s) rest⟩

theorem near_steps_plane {sp : Space} {prs : Fin k → Prior} {v : Vor2} (hk : sp.info.kind = .vor2 v)
    (hfp : sp.info.fromPrior = false) (hp : OnlyPriors sp prs) (h1 : v.vmin.1 < v.vmax.1) (h2 : v.vmin.2 < v.vmax.2)
    (hD : MeasurableSet (domain2 v)) (hvol : volume (domain2 v) ≠ 0) {dens : Fin k → ℝ × ℝ → ℝ → ℝ}
    (hd : ∀ j, HasDensity (prs j) .two (domain2 v) (dens j)) {std : Fin k → ℝ × ℝ → ℝ}
    (hstd : ∀ j, ∀ x ∈ domain2 v, (prs j).stdBirth.get (.two x) = .ok (std j x))
    (hpos : ∀ j, ∀ x ∈ domain2 v, 0 < std j x) :
    NearSteps sp prs planeSites BB.dist2 (fun _ => True) (domain2 v) (Measure.infinitePi fun _ : ℕ => unitLaw.prod unitLaw)
      (planeSite v) (fun _ ω => planeTape v ω) std dens := by
  have hdk : sp.info.kind.isDisc = true := by rw [hk]; rfl
  have hmeas : Measurable (planeSite v) := firstIn_meas (boxSite_meas v) hD
  have hkd : ∀ l s, Holds planeSites prs l s → ∃ s', sp.info.kind.withKd s = .ok s' ∧ Holds planeSites prs l s' := by
    rintro l ⟨n, vals, kd⟩ ⟨ha, hb⟩
    obtain ⟨kd', h⟩ := withKd_plane (v := v) (n := n) (ps := l.map Prod.fst)
      (vals := List.ofFn fun j => ((prs j).name, .arr (.vec (l.map fun r => r.2 j)))) (kd := kd)
    have hb' : vals = ("discretization", .arr (.pts (l.map Prod.fst))) ::
      List.ofFn fun j => ((prs j).name, .arr (.vec (l.map fun r => r.2 j))) := hb
    rw [hk, hb']
    exact ⟨_, h, ha, rfl⟩
  have hnear : ∀ (l : List ((ℝ × ℝ) × (Fin k → ℝ))) (x : ℝ × ℝ), ∀ i : Fin l.length,
      (∀ i', i' ≠ i → BB.dist2 (l.get i).1 x < BB.dist2 (l.get i').1 x) →
      nearest sp.info.kind (some (.arr (.pts (l.map Prod.fst)))) (.two x) = .ok (i : ℕ) := by
    intro l x i hi
    rw [hk]
    refine nearest_plane (i := i.cast (List.length_map ..).symm) fun i' hi' => ?_
    have := hi (i'.cast (List.length_map ..)) fun hc => hi' (by rw [← hc]; rfl)
    simpa using this
  refine ⟨?_, ?_, ?_, ?_⟩
  · intro l s hl hg hn hne
    have hgen : ∀ᵐ ω ∂Measure.infinitePi fun _ : ℕ => unitLaw.prod unitLaw,
        Generic BB.dist2 (planeSite v ω :: l.map Prod.fst) := by
      have e1 := generic_cons (nullSites_plane (cond_absolutelyContinuous (s := domain2 v))) hg.1
      rw [← planeSite_law h1 h2 hD hvol] at e1
      exact ae_of_ae_map hmeas.aemeasurable e1
    have hacc := some_accepted _ (boxSite_meas v) hD (planeSite_ne h1 h2 hD hvol)
    refine (hgen.and hacc).mono fun ω hω m z => ?_
    obtain ⟨hu, hω⟩ := hω
    have hin : planeSite v ω ∈ domain2 v := (firstIn_spec hω).1
    obtain ⟨i0, hi0⟩ := near_index hu hne
    set r := nearRow BB.dist2 std (planeSite v) (ofRows l) (ω, z) with hr
    have hrun := vorBirth_plane_of (s := s) (cs := ncols prs l z r.2) hk (ncols_nodup hp l z r.2) (ps := l.map Prod.fst)
      (by rw [hl.2, ncols_old]; rfl) (by rw [List.length_map, hl.1])
      (fun c hc => (ncols_length hc).trans hl.1.symm) (planeTape v ω) (normalDraws z) (planeSite v ω)
      (sampleSite_run h1.le h2.le hω)
      (newborn_near (disc := fun xs => .arr (.pts xs)) (loc := .two) hfp hp hd hstd hpos hl hin hi0
        (hnear l _ i0 hi0) z r.2 fun j => rfl)
    have hnew : Holds planeSites prs (listInsert l s.n r) (.mk (s.n + 1)
        (("discretization", .arr (.pts (listInsert (l.map Prod.fst) s.n (planeSite v ω)))) ::
        (ncols prs l z r.2).map (Col.ins s.n)) none) := by
      refine ⟨?_, ?_⟩
      · rw [length_listInsert, ← hl.1]
        rfl
      · rw [listInsert_map]
        have := ncols_ins prs l z r.2 s.n (planeSite v ω)
        change ("discretization", _) :: (ncols prs l z r.2).map (Col.ins s.n) = _
        rw [this]
        rfl
    obtain ⟨s', ha, hb⟩ := hkd _ _ hnew
    refine ⟨s.n, s', hb, ⟨hu.perm ((listInsert_perm s.n r).map _), trivial, fun r' hr' => ?_⟩,
      fun rest => disc_birth hdk (by rw [hl.1]; exact hn) ?_ ha⟩
    · rcases List.mem_cons.1 ((listInsert_perm s.n r).subset hr') with rfl | h
      · exact hin
      · exact hg.2.2 r' h
    · have := hrun rest
      rw [← List.append_assoc] at this
      exact this
  · intro l s hl hn
    obtain ⟨s', ha, hb⟩ := hkd _ _ hl
    exact ⟨s', hb, fun rest => disc_birth_end hdk (hl.1.trans hn) ha rest⟩
  · intro l s hl hg hn h2 m r hr
    have h0 : l.length ≠ 0 := by omega
    have hmod : m % l.length < l.length := Nat.mod_lt _ (Nat.pos_of_ne_zero h0)
    obtain rfl : l[m % l.length] = r := by
      rw [List.getElem?_eq_getElem hmod] at hr
      injection hr
    obtain ⟨hg', hgen⟩ := goodRows_erase (fun xs i h => h) hg hmod
    have hx := hg.2.2 _ (List.getElem_mem hmod)
    have hne : l.eraseIdx (m % l.length) ≠ [] := by
      intro hc
      have := congrArg List.length hc
      rw [List.length_eraseIdx_of_lt hmod, List.length_nil] at this
      omega
    obtain ⟨i0, hi0⟩ := near_index hgen hne
    have hnew : Holds planeSites prs (l.eraseIdx (m % l.length)) (.mk (s.n - 1)
        (("discretization", .arr (.pts ((l.map Prod.fst).eraseIdx (m % l.length)))) ::
        (ncols prs l (fun _ => 0) fun _ => 0).map (Col.del (m % l.length))) none) := by
      refine ⟨?_, ?_⟩
      · rw [List.length_eraseIdx_of_lt hmod, ← hl.1]
        rfl
      · rw [← ncols_del prs l (fun _ => 0) fun _ => 0, ← List.eraseIdx_map]
        rfl
    have hrun := vorDeath_of (s := s) (cs := ncols prs l (fun _ => 0) fun _ => 0)
      (v0 := .arr (.pts (l.map Prod.fst))) (v0' := .arr (.pts ((l.map Prod.fst).eraseIdx (m % l.length))))
      (m := m % l.length) (by rw [hl.2, ncols_old]; rfl) (fun c hc => (ncols_length hc).trans hl.1.symm)
      (by rw [hl.1]; exact h0) (indexDraw m) (by rw [hl.1]; rfl)
      (by rw [hk]; exact delOp_pts (by rw [List.length_map]; exact hmod))
      (by rw [len_pts, List.length_eraseIdx_of_lt (by rw [List.length_map]; exact hmod), List.length_map, hl.1])
      ⟨_, rfl⟩ (deathRatio_near (arr := .pts) (loc := .two) hfp hp (fun xs => rfl) hd hstd hpos hmod hl hnew hx hi0
        (hnear _ _ i0 hi0))
    obtain ⟨s', ha, hb⟩ := hkd _ _ hnew
    exact ⟨s', hb, hg', nearDens_pos hpos hx _, fun rest => disc_death hdk (by rw [hl.1]; exact hn) (hrun rest) ha⟩
  · intro l s hl hn
    obtain ⟨s', ha, hb⟩ := hkd _ _ hl
    exact ⟨s', hb, fun rest => disc_death_end hdk (hl.1.trans hn) ha rest⟩

/-- C75 for a `Voronoi1D`: with births from the nearest neighbour and the deaths of the code, one iteration of the chain
satisfies detailed balance with respect to the trans-dimensional prior times the likelihood to the power `1 / T`, and
preserves it.  (The code keeps the sites in ascending order, and so does the state that stands for a model.) -/
theorem C75_line {E : Type} (sp : Space) (prs : Fin k → Prior) (v : Vor1) (hk : sp.info.kind = .vor1 v)
    (hfp : sp.info.fromPrior = false) (hp : OnlyPriors sp prs) (hv : v.vmin < v.vmax)
    (h1 : 1 ≤ sp.info.lo) (hlh : sp.info.lo < sp.info.hi) (dens : Fin k → ℝ → ℝ → ℝ)
    (hd : ∀ j, HasDensity (prs j) .one (Set.Icc v.vmin v.vmax) (dens j)) (std : Fin k → ℝ → ℝ)
    (hsm : ∀ j, Measurable (std j))
    (hstd : ∀ j, ∀ x ∈ Set.Icc v.vmin v.vmax, (prs j).stdBirth.get (.one x) = .ok (std j x))
    (hpos : ∀ j, ∀ x ∈ Set.Icc v.vmin v.vmax, 0 < std j x)
    (logLik : Tuple (ℝ × (Fin k → ℝ)) → ℝ) (hℓ : Measurable logLik) (hℓr : ∀ x y, SameRows x y → logLik x = logLik y)
    (T : ℝ) (state : Tuple (ℝ × (Fin k → ℝ)) → Chain PSState Unit E)
    (hstate : ∀ x, ∃ l, l.Perm (List.ofFn x.2) ∧ (l.map Prod.fst).Pairwise (· ≤ ·) ∧ Holds lineSites prs l (state x).cur)
    (htemp : ∀ x, (state x).temp = T) :
    DetailedBalanceUpTo SameRows
      (posterior (transPrior (rowLaw volume[|Set.Icc v.vmin v.vmax] dens) sp.info.lo sp.info.hi) logLik T)
      (fun x => IterationLaw (birthDeathChain sp (decode lineSites prs) logLik)
        (nearDraws sp fun _ u => [unitDraw u]) (nearDrawsLaw k sp.info.hi unitLaw)
        (decode lineSites prs) (state x)) ∧
    PreservesUpTo SameRows
      (posterior (transPrior (rowLaw volume[|Set.Icc v.vmin v.vmax] dens) sp.info.lo sp.info.hi) logLik T)
      (fun x => IterationLaw (birthDeathChain sp (decode lineSites prs) logLik)
        (nearDraws sp fun _ u => [unitDraw u]) (nearDrawsLaw k sp.info.hi unitLaw)
        (decode lineSites prs) (state x)) := by
  have hprob : IsProbabilityMeasure volume[|Set.Icc v.vmin v.vmax] := by
    rw [← lineSite_law hv]
    exact Measure.isProbabilityMeasure_map (lineSite_meas v).aemeasurable
  refine near_balance (near_steps_line hk hfp hp hv hd hstd hpos) h1 hlh measurableSet_Icc (lineSite_meas v) (lineSite_law hv)
    (ae_cond_mem measurableSet_Icc) lineDist_meas (nullSites_line cond_absolutelyContinuous) hd hsm hpos _
    (decode_of (fun _ _ _ => rfl) fun a b _ h => ?_) logLik hℓ hℓr T state hstate htemp
  unfold lineSites at h
  simpa using h

/-- C75 for a `Voronoi2D`, with or without a polygon. -/
theorem C75_plane {E : Type} (sp : Space) (prs : Fin k → Prior) (v : Vor2) (hk : sp.info.kind = .vor2 v)
    (hfp : sp.info.fromPrior = false) (hp : OnlyPriors sp prs) (hx : v.vmin.1 < v.vmax.1) (hy : v.vmin.2 < v.vmax.2)
    (hD : MeasurableSet {q | InDomain v q}) (hvol : volume {q | InDomain v q} ≠ 0)
    (h1 : 1 ≤ sp.info.lo) (hlh : sp.info.lo < sp.info.hi) (dens : Fin k → ℝ × ℝ → ℝ → ℝ)
    (hd : ∀ j, HasDensity (prs j) .two {q | InDomain v q} (dens j)) (std : Fin k → ℝ × ℝ → ℝ)
    (hsm : ∀ j, Measurable (std j))
    (hstd : ∀ j q, InDomain v q → (prs j).stdBirth.get (.two q) = .ok (std j q))
    (hpos : ∀ j q, InDomain v q → 0 < std j q)
    (logLik : Tuple ((ℝ × ℝ) × (Fin k → ℝ)) → ℝ) (hℓ : Measurable logLik)
    (hℓr : ∀ x y, SameRows x y → logLik x = logLik y)
    (T : ℝ) (state : Tuple ((ℝ × ℝ) × (Fin k → ℝ)) → Chain PSState Unit E)
    (hstate : ∀ x, Holds planeSites prs (List.ofFn x.2) (state x).cur) (htemp : ∀ x, (state x).temp = T) :
    DetailedBalanceUpTo SameRows
      (posterior (transPrior (rowLaw volume[|{q | InDomain v q}] dens) sp.info.lo sp.info.hi) logLik T)
      (fun x => IterationLaw (birthDeathChain sp (decode planeSites prs) logLik)
        (nearDraws sp fun _ ω => planeTape v ω)
        (nearDrawsLaw k sp.info.hi (Measure.infinitePi fun _ : ℕ => unitLaw.prod unitLaw))
        (decode planeSites prs) (state x)) ∧
    PreservesUpTo SameRows
      (posterior (transPrior (rowLaw volume[|{q | InDomain v q}] dens) sp.info.lo sp.info.hi) logLik T)
      (fun x => IterationLaw (birthDeathChain sp (decode planeSites prs) logLik)
        (nearDraws sp fun _ ω => planeTape v ω)
        (nearDrawsLaw k sp.info.hi (Measure.infinitePi fun _ : ℕ => unitLaw.prod unitLaw))
        (decode planeSites prs) (state x)) := by
  have hmeas : Measurable (planeSite v) := firstIn_meas (boxSite_meas v) hD
  have hprob : IsProbabilityMeasure volume[|domain2 v] := by
    rw [← planeSite_law hx hy hD hvol]
    exact Measure.isProbabilityMeasure_map hmeas.aemeasurable
  refine near_balance (σs := volume[|domain2 v]) (near_steps_plane hk hfp hp hx hy hD hvol hd hstd hpos) h1 hlh hD hmeas
    (planeSite_law hx hy hD hvol) (ae_cond_mem hD) planeDist_meas (nullSites_plane cond_absolutelyContinuous) hd hsm
    hpos _ (decode_of (fun _ _ _ => rfl) fun a b _ h => ?_) logLik hℓ hℓr T state
    (fun x => ⟨_, List.Perm.refl _, trivial, hstate x⟩) htemp
  unfold planeSites at h
  simpa using h

end classes

/-! ### Non-trivial instances -/

section Examples

/-- A trans-dimensional space with the parameters of the examples of C23 and births from the nearest neighbour. -/
noncomputable def exSpace75 (k : Kind) : Space :=
  .mk { name := "s", kind := k, fromPrior := false }
    (.cons "a" (.prior (exPriors23 0)) (.cons "b" (.prior (exPriors23 1)) .nil))

theorem ex75_only (k : Kind) : OnlyPriors (exSpace75 k) exPriors23 :=
  ⟨rfl, (ex23_only k).inj, (ex23_only k).disc⟩

/-- The state with the rows of a model, in ascending order of the sites. -/
noncomputable def exState75 (c : Chain PSState Unit Unit) (x : Tuple (ℝ × (Fin 2 → ℝ))) : Chain PSState Unit Unit :=
  exState23 lineSites c (ofRows ((List.ofFn x.2).insertionSort fun a b => a.1 ≤ b.1))

theorem ex75_state (c : Chain PSState Unit Unit) (x : Tuple (ℝ × (Fin 2 → ℝ))) :
    ∃ l, l.Perm (List.ofFn x.2) ∧ (l.map Prod.fst).Pairwise (· ≤ ·) ∧ Holds lineSites exPriors23 l (exState75 c x).cur := by
  have htot : Std.Total fun a b : ℝ × (Fin 2 → ℝ) => a.1 ≤ b.1 := ⟨fun a b => le_total a.1 b.1⟩
  have htr : IsTrans (ℝ × (Fin 2 → ℝ)) fun a b => a.1 ≤ b.1 := ⟨fun a b c h1 h2 => le_trans h1 h2⟩
  refine ⟨(List.ofFn x.2).insertionSort fun a b => a.1 ≤ b.1, List.perm_insertionSort _ _, ?_, ?_⟩
  · rw [List.pairwise_map]
    exact List.pairwise_insertionSort _ _
  · have := ex23_state lineSites c (ofRows ((List.ofFn x.2).insertionSort fun a b => a.1 ≤ b.1))
    rw [rows_ofRows] at this
    exact this

theorem ex75_std (j : Fin 2) (p : Pos) : (exPriors23 j).stdBirth.get p = .ok 1 := by
  fin_cases j <;> rfl

example (c : Chain PSState Unit Unit) (s : ArgSort) := C75_line (exSpace75 (.vor1 ⟨0, 10, 1, s⟩)) exPriors23 ⟨0, 10, 1, s⟩
  rfl rfl (ex75_only _) (by norm_num) (by change 1 ≤ 1; decide) (by change 1 < 10; decide) exDens23 (ex23_dens _ _)
  (fun _ _ => 1) (fun _ => measurable_const) (fun j _ _ => ex75_std j _) (fun _ _ _ => one_pos)
  exLik23 ex23_lik ex23_same 2 (exState75 c) (ex75_state c) fun _ => rfl

example (c : Chain PSState Unit Unit) := C75_plane (exSpace75 (.vor2 exVor23)) exPriors23 exVor23
  rfl rfl (ex75_only _) (by change (0 : ℝ) < 1; norm_num) (by change (0 : ℝ) < 1; norm_num)
  (by
    rw [ex23_domain]
    exact (measurableSet_le measurable_const measurable_snd).inter
      ((measurableSet_le measurable_snd measurable_fst).inter (measurableSet_le measurable_fst measurable_const)))
  (by
    rw [ex23_domain]
    refine ne_of_gt (lt_of_lt_of_le ?_ (measure_mono (s := Set.Icc (1 / 2) 1 ×ˢ Set.Icc 0 (1 / 2)) ?_))
    · have hv : (volume : Measure (ℝ × ℝ)) = (volume : Measure ℝ).prod volume := rfl
      rw [hv, Measure.prod_prod, Real.volume_Icc, Real.volume_Icc]
      exact ENNReal.mul_pos (by norm_num) (by norm_num)
    · rintro ⟨a, b⟩ ⟨⟨h1, h2⟩, h3, h4⟩
      exact ⟨h3, le_trans h4 h1, h2⟩)
  (by change 1 ≤ 1; decide) (by change 1 < 10; decide) exDens23 (ex23_dens _ _)
  (fun _ _ => 1) (fun _ => measurable_const) (fun j _ _ => ex75_std j _) (fun _ _ _ => one_pos)
  exLik23 ex23_lik ex23_same 2 (exState23 planeSites c) (ex23_state _ c) fun _ => rfl

end Examples

end BB.Props
