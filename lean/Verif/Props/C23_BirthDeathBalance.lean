import Verif.Lemmas.Births
import Verif.Lemmas.SiteLaw
import Verif.Props.C09_Balance

/-!
# C23 — births from the prior and deaths leave the trans-dimensional prior invariant

A chain the perturbations of which are the birth and the death of a parameter space or of a Voronoi tessellation all of
whose parameters are priors, with births from the prior.  The trans-dimensional prior gives the same mass to
all numbers of dimensions between the bounds; given the number, the rows (a site with the values of the parameters there) are
independent, the sites are uniform in the domain, and the values have the densities of the priors.  Models are compared up
to the order of the rows.
-/

namespace BB.Props

open BB Spec Lemmas MeasureTheory ProbabilityTheory

/-- The chain with the two perturbations, chosen equally often. -/
noncomputable def birthDeathChain {X : Type} (sp : Space) (val : PSState → X) (logLik : X → ℝ) : ChainCfg PSState Unit where
  perturbs := [((PSFunc.birth sp).name, (PSFunc.birth sp).run), ((PSFunc.death sp).name, (PSFunc.death sp).run)]
  weights := [1, 1]
  llr := fun s new T => (.ok (.fin ((logLik (val new) - logLik (val s)) / T)), s, new)
  stats := fun _ => .ok []
  setTemp := fun s _ => s
  save := fun _ s => (.ok (), s)

/-- The state holds these rows: the sites (stored as `col` says) and an array for each parameter. -/
def Holds {P : Type} {k : ℕ} (col : List P → List (String × PVal)) (prs : Fin k → Prior) (l : List (P × (Fin k → ℝ)))
    (s : PSState) : Prop :=
  s.n = l.length ∧ s.vals = col (l.map Prod.fst) ++ List.ofFn fun j => ((prs j).name, .arr (.vec (l.map fun r => r.2 j)))

/-- The draws of an index. -/
def indexDraw (k : ℕ) : Draw := ⟨k, 0, 0, by norm_num⟩

/-- The draws of the values of a row. -/
noncomputable def valueDraws {k : ℕ} (prs : Fin k → Prior) (d : Fin k → ℝ) : List Draw :=
  List.ofFn fun j => devDraw (prs j).dist (d j)

/-- The draws of the two perturbations: none if nothing can be born or die, otherwise for a birth those of the place
(`pre`) and then the values, for a death the index. -/
noncomputable def birthDeathDraws {Ω : Type} {k : ℕ} (sp : Space) (prs : Fin k → Prior) (pre : ℕ → Ω → List Draw)
    (i : Fin 2) (s : PSState) (θ : ℕ × (Ω × (Fin k → ℝ))) : List Draw :=
  if i = 0 then if s.n = sp.info.hi then [] else pre θ.1 θ.2.1 ++ valueDraws prs θ.2.2
  else if s.n = sp.info.lo then [] else [indexDraw θ.1]

/-- The law of the draws: an index (the remainder of a number below a multiple of all possible numbers of rows), what
leads to the site, and a deviate for each parameter. -/
noncomputable def drawsLaw {Ω : Type} [MeasurableSpace Ω] {k : ℕ} (prs : Fin k → Prior) (hi : ℕ) (μ : Measure Ω) :
    Measure (ℕ × (Ω × (Fin k → ℝ))) :=
  (uniformNat hi.factorial).prod (μ.prod (Measure.pi fun j => devLaw (prs j).dist))

/-- What is used of a birth and a death. -/
structure Steps {P Ω : Type} [MeasurableSpace P] [MeasurableSpace Ω] {k : ℕ} (sp : Space) (prs : Fin k → Prior)
    (col : List P → List (String × PVal)) (loc : P → Pos) (dom : Set P) (μ : Measure Ω) (site : Ω → P)
    (pre : ℕ → Ω → List Draw) : Prop where
  birth : ∀ᵐ ω ∂μ, site ω ∈ dom ∧ ∀ l s, Holds col prs l s → l.length ≠ sp.info.hi → ∀ (m : ℕ) (d v : Fin k → ℝ),
    (∀ j rest, (prs j).sample (loc (site ω)) (devDraw (prs j).dist (d j) :: rest) = (.ok (v j), rest)) →
    ∃ i s', i ≤ l.length ∧ Holds col prs (listInsert l i (site ω, v)) s' ∧
      ∀ rest, sp.birth s (pre m ω ++ valueDraws prs d ++ rest) = (.ok (s', .fin 0), rest)
  birth_end : ∀ l s, Holds col prs l s → l.length = sp.info.hi → ∃ s', Holds col prs l s' ∧
      ∀ rest, sp.birth s rest = (.ok (s', .ninf), rest)
  death : ∀ l s, Holds col prs l s → l.length ≠ sp.info.lo → l.length ≠ 0 → ∀ m, ∃ s',
      Holds col prs (l.eraseIdx (m % l.length)) s' ∧
      ∀ rest, sp.death s (indexDraw m :: rest) = (.ok (s', .fin 0), rest)
  death_end : ∀ l s, Holds col prs l s → l.length = sp.info.lo → ∃ s', Holds col prs l s' ∧
      ∀ rest, sp.death s rest = (.ok (s', .ninf), rest)

/-- The model with the rows of a list. -/
def ofRows {R : Type} (l : List R) : Tuple R := ⟨l.length, l.get⟩

theorem rows_ofRows {R : Type} (l : List R) : List.ofFn (ofRows l).2 = l := List.ofFn_get l

theorem listInsert_perm {R : Type} {l : List R} (i : ℕ) (x : R) : (listInsert l i x).Perm (x :: l) := by
  unfold listInsert
  refine List.perm_middle.trans ?_
  rw [List.take_append_drop]

theorem addRow_rows {R : Type} {hi : ℕ} {x : Tuple R} (h : x.1 ≠ hi) (m : ℕ) (y : R) :
    (List.ofFn (addRow hi x m y).2).Perm (y :: List.ofFn x.2) := by
  unfold addRow
  rw [if_neg h]
  exact ofFn_insertAt _ _ _

theorem eraseIdx_perm {R : Type} : ∀ {l : List R} {i : ℕ} (h : i < l.length), l.Perm (l[i] :: l.eraseIdx i)
  | a :: l, 0, _ => List.Perm.refl _
  | a :: l, i + 1, h => by
    have ih := eraseIdx_perm (l := l) (i := i) (by simpa using h)
    exact (ih.cons a).trans (List.Perm.swap _ _ _)

theorem removeRow_rows {R : Type} {lo hi : ℕ} {x : Tuple R} (h1 : x.1 ≠ lo) (h2 : x.1 ≤ hi) (h0 : x.1 ≠ 0) (m : ℕ) :
    (List.ofFn (removeRow lo hi x m).2).Perm ((List.ofFn x.2).eraseIdx (m % x.1)) := by
  classical
  obtain ⟨n, v⟩ := x
  unfold removeRow
  have hc : ¬ (n = lo ∨ hi < n) := by
    rintro (h | h)
    · exact h1 h
    · exact absurd h2 (not_le.2 h)
  rw [if_neg hc]
  match n, v, h0 with
  | n + 1, v, _ =>
    have hlt : m % (n + 1) < (List.ofFn v).length := by
      rw [List.length_ofFn]
      exact Nat.mod_lt _ (Nat.succ_pos n)
    have h3 := ofFn_succAbove v (Fin.ofNat (n + 1) m)
    have h4 := eraseIdx_perm hlt
    have he : (List.ofFn v)[m % (n + 1)] = v (Fin.ofNat (n + 1) m) := by
      rw [List.getElem_ofFn]
      rfl
    rw [he] at h4
    exact List.Perm.cons_inv (h3.symm.trans h4)

theorem transPrior_dim {R : Type} [MeasurableSpace R] (ρ : Measure R) (lo hi : ℕ) :
    ∀ᵐ x ∂transPrior ρ lo hi, lo ≤ x.1 ∧ x.1 ≤ hi := by
  have hm : MeasurableSet {x : Tuple R | ¬ (lo ≤ x.1 ∧ x.1 ≤ hi)} := 
    dim_meas (R := R) (t := {n | ¬ (lo ≤ n ∧ n ≤ hi)}) trivial
  rw [ae_iff]
  unfold transPrior
  rw [Measure.finsetSum_apply]
  refine Finset.sum_eq_zero fun n hn => ?_
  rw [Measure.map_apply (measurable_mk n) hm]
  rw [Finset.mem_Ico] at hn
  have : tup n ⁻¹' {x : Tuple R | ¬ (lo ≤ x.1 ∧ x.1 ≤ hi)} = ∅ := by
    ext v
    simp only [Set.mem_preimage, Set.mem_ofPred_eq, Set.mem_empty_iff_false, iff_false, not_not]
    exact ⟨hn.1, by omega⟩
  rw [this, measure_empty]

section general

variable {P Ω : Type} [MeasurableSpace P] [MeasurableSpace Ω] {k : ℕ} {sp : Space} {prs : Fin k → Prior}
  {col : List P → List (String × PVal)} {loc : P → Pos} {dom : Set P} {μ : Measure Ω} {site : Ω → P}
  {pre : ℕ → Ω → List Draw}

theorem birthDeath_move0 {R Ω : Type} [MeasurableSpace R] [MeasurableSpace Ω] (ρ : Measure R) (μ : Measure Ω) (new : Ω → R)
    (lo hi : ℕ) (common : Measure (Tuple R × Tuple R)) (x : Tuple R) (θ : ℕ × Ω) :
    (birthDeath ρ μ new lo hi common).move 0 x θ = addRow hi x θ.1 (new θ.2) := by
  unfold birthDeath
  simp only [if_true]

theorem birthDeath_move1 {R Ω : Type} [MeasurableSpace R] [MeasurableSpace Ω] (ρ : Measure R) (μ : Measure Ω) (new : Ω → R)
    (lo hi : ℕ) (common : Measure (Tuple R × Tuple R)) (x : Tuple R) (θ : ℕ × Ω) :
    (birthDeath ρ μ new lo hi common).move 1 x θ = removeRow lo hi x θ.1 := by
  unfold birthDeath
  have : ¬ (1 : Fin 2) = 0 := by decide
  simp only [this, if_false]

theorem birthDeath_dens0 {R Ω : Type} [MeasurableSpace R] [MeasurableSpace Ω] (ρ : Measure R) (μ : Measure Ω) (new : Ω → R)
    (lo hi : ℕ) (common : Measure (Tuple R × Tuple R)) (x y : Tuple R) :
    (birthDeath ρ μ new lo hi common).dens 0 (x, y) = if y.1 = x.1 + 1 ∨ (x.1 = hi ∧ y.1 = x.1) then 1 else 0 := by
  unfold birthDeath
  simp only [if_true]

theorem birthDeath_dens1 {R Ω : Type} [MeasurableSpace R] [MeasurableSpace Ω] (ρ : Measure R) (μ : Measure Ω) (new : Ω → R)
    (lo hi : ℕ) (common : Measure (Tuple R × Tuple R)) (x y : Tuple R) :
    (birthDeath ρ μ new lo hi common).dens 1 (x, y) = if x.1 = y.1 + 1 ∨ (x.1 = lo ∧ y.1 = x.1) then 1 else 0 := by
  unfold birthDeath
  have : ¬ (1 : Fin 2) = 0 := by decide
  simp only [this, if_false]

theorem one_one : (logQuotient 1 1).num = .fin 0 := by
  unfold logQuotient
  rw [if_neg one_ne_zero, div_one, Real.log_one]
  rfl

theorem zero_any (b : ℝ) : (logQuotient 0 b).num = .ninf := by
  unfold logQuotient
  rw [if_pos rfl]
  rfl

/-- A row drawn by the code. -/
def rowOf (site : Ω → P) (value : Fin k → P → ℝ → ℝ) (ω : Ω × (Fin k → ℝ)) : P × (Fin k → ℝ) :=
  (site ω.1, fun j => value j (site ω.1) (ω.2 j))

theorem birth_step [IsProbabilityMeasure μ] (hst : Steps sp prs col loc dom μ site pre)
    (hlh : sp.info.lo < sp.info.hi)
    {value : Fin k → P → ℝ → ℝ} (hv : ∀ j, ∀ x ∈ dom, ∀ ω rest,
      (prs j).sample (loc x) (devDraw (prs j).dist ω :: rest) = (.ok (value j x ω), rest))
    (val : PSState → Tuple (P × (Fin k → ℝ))) (hval : ∀ l s, Holds col prs l s → val s = ofRows l)
    (ρ : Measure (P × (Fin k → ℝ))) (common : Measure (Tuple (P × (Fin k → ℝ)) × Tuple (P × (Fin k → ℝ))))
    {B : Scheme (Tuple (P × (Fin k → ℝ))) (ℕ × (Ω × (Fin k → ℝ))) 2}
    (hB : B = birthDeath ρ (μ.prod (Measure.pi fun j => devLaw (prs j).dist)) (rowOf site value) sp.info.lo sp.info.hi
      common) {s : PSState} {l : List (P × (Fin k → ℝ))} (hl : Holds col prs l s) (hlo : sp.info.lo ≤ l.length)
    (hhi : l.length ≤ sp.info.hi) :
    ∀ᵐ θ ∂B.draws, ∃ new lpr, (∀ rest, sp.birth s (birthDeathDraws sp prs pre 0 s θ ++ rest) = (.ok (new, lpr), rest)) ∧
      (∃ l, Holds col prs l new ∧ sp.info.lo ≤ l.length ∧ l.length ≤ sp.info.hi) ∧
      SameRows (val new) (B.move 0 (val s) θ) ∧
      (B.dens 0 (val s, B.move 0 (val s) θ) ≠ 0 →
        lpr = (logQuotient (B.dens 1 (B.move 0 (val s) θ, val s)) (B.dens 0 (val s, B.move 0 (val s) θ))).num) := by
  have hvs : val s = ofRows l := hval l s hl
  have hn : s.n = l.length := hl.1
  rw [hvs]
  subst hB
  simp only [birthDeath_move0, birthDeath_dens0, birthDeath_dens1]
  by_cases hend : l.length = sp.info.hi
  · obtain ⟨s', h1, h2⟩ := hst.birth_end l s hl hend
    refine .of_forall fun θ => ?_
    have hmove : addRow sp.info.hi (ofRows l) θ.1 (rowOf site value θ.2) = ofRows l := if_pos hend
    rw [hmove]
    refine ⟨s', .ninf, fun rest => ?_, ⟨l, h1, hlo, hhi⟩, ?_, fun _ => ?_⟩
    · have : birthDeathDraws sp prs pre 0 s θ = [] := by
        unfold birthDeathDraws
        rw [if_pos rfl, if_pos (hn.trans hend)]
      rw [this]
      exact h2 rest
    · rw [hval l s' h1]
      exact SameRows.refl _
    · have hlen : (ofRows l).1 = l.length := rfl
      have h3 : ¬ ((ofRows l).1 = (ofRows l).1 + 1 ∨ ((ofRows l).1 = sp.info.lo ∧ (ofRows l).1 = (ofRows l).1)) := by
        rintro (h | ⟨h, -⟩) <;> omega
      rw [if_neg h3, zero_any]
  · have hae := (Measure.quasiMeasurePreserving_fst (μ := μ)
      (ν := Measure.pi fun j => devLaw (prs j).dist)).ae hst.birth
    have hae2 := (Measure.quasiMeasurePreserving_snd (μ := uniformNat sp.info.hi.factorial)
      (ν := μ.prod (Measure.pi fun j => devLaw (prs j).dist))).ae hae
    refine hae2.mono fun θ hθ => ?_
    obtain ⟨hdom, hθ⟩ := hθ
    obtain ⟨m, ω, d⟩ := θ
    obtain ⟨i, s', h1, h2, h3⟩ := hθ l s hl hend m d (fun j => value j (site ω) (d j))
      fun j rest => hv j _ hdom _ _
    change Holds col prs (listInsert l i (rowOf site value (ω, d))) s' at h2
    have hlen : (addRow sp.info.hi (ofRows l) m (rowOf site value (ω, d))).1 = l.length + 1 := by
      unfold addRow
      rw [if_neg (show (ofRows l).1 ≠ sp.info.hi from hend)]
      rfl
    have hlen0 : (ofRows l).1 = l.length := rfl
    simp only [hlen, hlen0]
    refine ⟨s', .fin 0, fun rest => ?_, ⟨_, h2, ?_, ?_⟩, ?_, fun _ => ?_⟩
    · have : birthDeathDraws sp prs pre 0 s (m, ω, d) = pre m ω ++ valueDraws prs d := by
        unfold birthDeathDraws
        rw [if_pos rfl, if_neg (by rw [hn]; exact hend)]
      rw [this]
      exact h3 rest
    · rw [length_listInsert]
      omega
    · rw [length_listInsert]
      omega
    · rw [hval _ s' h2]
      unfold SameRows
      rw [rows_ofRows]
      refine (listInsert_perm i _).trans ?_
      have := addRow_rows (hi := sp.info.hi) (x := ofRows l) hend m (rowOf site value (ω, d))
      rw [rows_ofRows] at this
      exact this.symm
    · rw [if_pos (.inl trivial), if_pos (.inl trivial), one_one]

theorem death_step (hst : Steps sp prs col loc dom μ site pre)
    (hlh : sp.info.lo < sp.info.hi) {value : Fin k → P → ℝ → ℝ}
    (val : PSState → Tuple (P × (Fin k → ℝ))) (hval : ∀ l s, Holds col prs l s → val s = ofRows l)
    (ρ : Measure (P × (Fin k → ℝ))) (common : Measure (Tuple (P × (Fin k → ℝ)) × Tuple (P × (Fin k → ℝ))))
    {B : Scheme (Tuple (P × (Fin k → ℝ))) (ℕ × (Ω × (Fin k → ℝ))) 2}
    (hB : B = birthDeath ρ (μ.prod (Measure.pi fun j => devLaw (prs j).dist)) (rowOf site value) sp.info.lo sp.info.hi
      common) {s : PSState} {l : List (P × (Fin k → ℝ))} (hl : Holds col prs l s) (hlo : sp.info.lo ≤ l.length)
    (hhi : l.length ≤ sp.info.hi) :
    ∀ᵐ θ ∂B.draws, ∃ new lpr, (∀ rest, sp.death s (birthDeathDraws sp prs pre 1 s θ ++ rest) = (.ok (new, lpr), rest)) ∧
      (∃ l, Holds col prs l new ∧ sp.info.lo ≤ l.length ∧ l.length ≤ sp.info.hi) ∧
      SameRows (val new) (B.move 1 (val s) θ) ∧
      (B.dens 1 (val s, B.move 1 (val s) θ) ≠ 0 →
        lpr = (logQuotient (B.dens 0 (B.move 1 (val s) θ, val s)) (B.dens 1 (val s, B.move 1 (val s) θ))).num) := by
  have hvs : val s = ofRows l := hval l s hl
  have hn : s.n = l.length := hl.1
  have hlen0 : (ofRows l).1 = l.length := rfl
  rw [hvs]
  subst hB
  simp only [birthDeath_move1, birthDeath_dens0, birthDeath_dens1]
  refine .of_forall fun θ => ?_
  obtain ⟨m, ω, d⟩ := θ
  have h10 : ¬ (1 : Fin 2) = 0 := by decide
  by_cases hend : l.length = sp.info.lo
  · obtain ⟨s', h1, h2⟩ := hst.death_end l s hl hend
    have hmove : removeRow sp.info.lo sp.info.hi (ofRows l) m = ofRows l := if_pos (.inl hend)
    simp only [hmove]
    refine ⟨s', .ninf, fun rest => ?_, ⟨l, h1, hlo, hhi⟩, ?_, fun _ => ?_⟩
    · have : birthDeathDraws sp prs pre 1 s (m, ω, d) = [] := by
        unfold birthDeathDraws
        rw [if_neg h10, if_pos (hn.trans hend)]
      rw [this]
      exact h2 rest
    · rw [hval l s' h1]
      exact SameRows.refl _
    · have h3 : ¬ ((ofRows l).1 = (ofRows l).1 + 1 ∨ ((ofRows l).1 = sp.info.hi ∧ True)) := by
        rintro (h | ⟨h, -⟩) <;> omega
      rw [if_neg h3, zero_any]
  · have h0 : l.length ≠ 0 := by omega
    obtain ⟨s', h1, h2⟩ := hst.death l s hl hend h0 m
    have hperm := removeRow_rows (lo := sp.info.lo) (hi := sp.info.hi) (x := ofRows l) hend hhi h0 m
    rw [rows_ofRows, hlen0] at hperm
    have hmod : m % l.length < l.length := Nat.mod_lt _ (Nat.pos_of_ne_zero h0)
    have hlen : l.length = (removeRow sp.info.lo sp.info.hi (ofRows l) m).1 + 1 := by
      have := hperm.length_eq
      rw [List.length_ofFn, List.length_eraseIdx_of_lt hmod] at this
      omega
    refine ⟨s', .fin 0, fun rest => ?_, ⟨_, h1, ?_, ?_⟩, ?_, fun _ => ?_⟩
    · have : birthDeathDraws sp prs pre 1 s (m, ω, d) = [indexDraw m] := by
        unfold birthDeathDraws
        rw [if_neg h10, if_neg (by rw [hn]; exact hend)]
      rw [this]
      exact h2 rest
    · rw [List.length_eraseIdx_of_lt hmod]
      omega
    · rw [List.length_eraseIdx_of_lt hmod]
      omega
    · rw [hval _ s' h1]
      unfold SameRows
      rw [rows_ofRows]
      exact hperm.symm
    · rw [if_pos (.inl hlen), if_pos (.inl hlen), one_one]

theorem birthDeath_reports [IsProbabilityMeasure μ] (hst : Steps sp prs col loc dom μ site pre)
    (hlh : sp.info.lo < sp.info.hi)
    {value : Fin k → P → ℝ → ℝ} (hv : ∀ j, ∀ x ∈ dom, ∀ ω rest,
      (prs j).sample (loc x) (devDraw (prs j).dist ω :: rest) = (.ok (value j x ω), rest))
    (val : PSState → Tuple (P × (Fin k → ℝ))) (hval : ∀ l s, Holds col prs l s → val s = ofRows l)
    (logLik : Tuple (P × (Fin k → ℝ)) → ℝ) (T : ℝ) (ρ : Measure (P × (Fin k → ℝ)))
    (common : Measure (Tuple (P × (Fin k → ℝ)) × Tuple (P × (Fin k → ℝ)))) :
    Reports (birthDeathChain sp val logLik)
      (birthDeath ρ (μ.prod (Measure.pi fun j => devLaw (prs j).dist)) (rowOf site value) sp.info.lo sp.info.hi common)
      logLik T (birthDeathDraws sp prs pre) val
      (fun s => ∃ l, Holds col prs l s ∧ sp.info.lo ≤ l.length ∧ l.length ≤ sp.info.hi) SameRows where
  likelihood := fun s new hs hn => ⟨s, new, rfl, hs, hn, SameRows.refl _, SameRows.refl _⟩
  proposal := by
    rintro ⟨i, hi⟩ s ⟨l, hl, hlo, hhi⟩
    have hi2 : i < 2 := hi
    rcases i with _ | _ | i
    · exact birth_step hst hlh hv val hval ρ common rfl hl hlo hhi
    · exact death_step hst hlh val hval ρ common rfl hl hlo hhi
    · omega

theorem birthDeath_balance {E : Type} {σs : Measure P} [IsProbabilityMeasure σs] [IsProbabilityMeasure μ]
    (hst : Steps sp prs col loc dom μ site pre) (hlh : sp.info.lo < sp.info.hi) (hdm : MeasurableSet dom) (hs : Measurable site)
    (hσ : μ.map site = σs) (dens : Fin k → P → ℝ → ℝ) (hd : ∀ j, HasDensity (prs j) loc dom (dens j))
    (val : PSState → Tuple (P × (Fin k → ℝ))) (hval : ∀ l s, Holds col prs l s → val s = ofRows l)
    (logLik : Tuple (P × (Fin k → ℝ)) → ℝ) (hℓ : Measurable logLik) (hℓr : ∀ x y, SameRows x y → logLik x = logLik y)
    (T : ℝ) (state : Tuple (P × (Fin k → ℝ)) → Chain PSState Unit E)
    (hstate : ∀ x, Holds col prs (List.ofFn x.2) (state x).cur) (htemp : ∀ x, (state x).temp = T) :
    DetailedBalanceUpTo SameRows (posterior (transPrior (rowLaw σs dens) sp.info.lo sp.info.hi) logLik T)
      (fun x => IterationLaw (birthDeathChain sp val logLik) (birthDeathDraws sp prs pre) (drawsLaw prs sp.info.hi μ)
        val (state x)) ∧
    PreservesUpTo SameRows (posterior (transPrior (rowLaw σs dens) sp.info.lo sp.info.hi) logLik T)
      (fun x => IterationLaw (birthDeathChain sp val logLik) (birthDeathDraws sp prs pre) (drawsLaw prs sp.info.hi μ)
        val (state x)) := by
  have hsam := fun j => HasDensity.sampled (hd j)
  choose hm value hvm hrun hlaw using hsam
  have hnew : Measurable fun ω : Ω × (Fin k → ℝ) => (site ω.1, fun j => value j (site ω.1) (ω.2 j)) := by
    refine (hs.comp measurable_fst).prodMk (measurable_pi_lambda _ fun j => ?_)
    exact (hvm j).comp ((hs.comp measurable_fst).prodMk ((measurable_pi_apply j).comp measurable_snd))
  have hdom : ∀ᵐ x ∂σs, x ∈ dom := by
    rw [← hσ]
    exact (ae_map_iff hs.aemeasurable hdm).2 (hst.birth.mono fun ω hω => hω.1)
  have hrow := row_law hm hs hσ hdom hvm hlaw
  have hprob : IsProbabilityMeasure (rowLaw σs dens) := by
    rw [← hrow]
    exact Measure.isProbabilityMeasure_map hnew.aemeasurable
  have hw : ∀ w ∈ (birthDeathChain sp val logLik).weights, 0 ≤ w := by simp [birthDeathChain]
  refine C09_up_to (birthDeathChain sp val logLik) rfl hw (by simp [birthDeathChain])
    (birthDeath (rowLaw σs dens) _ (rowOf site value) sp.info.lo sp.info.hi (pairs (rowLaw σs dens) sp.info.lo sp.info.hi))
    (birthDeath_ok hnew hrow hlh rfl) logLik hℓ T (birthDeathDraws sp prs pre) val _ SameRows SameRows.refl
    (birthDeath_lumps _ _ _) hℓr (birthDeath_reports hst hlh hrun val hval logLik T _ _) state
    ((transPrior_dim _ _ _).mono fun x hx => ?_) htemp
  have hx' := hstate x
  refine ⟨⟨_, hx', by rw [List.length_ofFn]; exact hx.1, by rw [List.length_ofFn]; exact hx.2⟩, ?_⟩
  rw [hval _ _ hx']
  unfold SameRows
  rw [rows_ofRows]

end general

/-! ### the three classes -/

section classes

variable {P : Type} {k : ℕ}

/-- The parameters with their values, the new ones, and the draws. -/
noncomputable def cols (prs : Fin k → Prior) (l : List (P × (Fin k → ℝ))) (d v : Fin k → ℝ) : List Col :=
  List.ofFn fun j => ⟨prs j, l.map fun r => r.2 j, v j, devDraw (prs j).dist (d j)⟩

theorem listInsert_map {α β : Type} (f : α → β) (l : List α) (i : ℕ) (x : α) :
    (listInsert l i x).map f = listInsert (l.map f) i (f x) := by
  unfold listInsert
  rw [List.map_append, List.map_cons, List.map_take, List.map_drop]

theorem cols_old (prs : Fin k → Prior) (l : List (P × (Fin k → ℝ))) (d v : Fin k → ℝ) : (cols prs l d v).map Col.old =
    List.ofFn fun j => ((prs j).name, .arr (.vec (l.map fun r => r.2 j))) := by
  unfold cols
  rw [List.map_ofFn]
  rfl

theorem cols_draw (prs : Fin k → Prior) (l : List (P × (Fin k → ℝ))) (d v : Fin k → ℝ) :
    (cols prs l d v).map Col.draw = valueDraws prs d := by
  unfold cols
  rw [List.map_ofFn]
  rfl

theorem cols_ins (prs : Fin k → Prior) (l : List (P × (Fin k → ℝ))) (d v : Fin k → ℝ) (i : ℕ) (x : P) :
    (cols prs l d v).map (Col.ins i) =
      List.ofFn fun j => ((prs j).name, .arr (.vec ((listInsert l i (x, v)).map fun r => r.2 j))) := by
  unfold cols
  rw [List.map_ofFn]
  congr 1
  funext j
  rw [listInsert_map]
  rfl

theorem cols_del (prs : Fin k → Prior) (l : List (P × (Fin k → ℝ))) (d v : Fin k → ℝ) (i : ℕ) :
    (cols prs l d v).map (Col.del i) =
      List.ofFn fun j => ((prs j).name, .arr (.vec ((l.eraseIdx i).map fun r => r.2 j))) := by
  unfold cols
  rw [List.map_ofFn]
  congr 1
  funext j
  rw [← List.eraseIdx_map]
  rfl

theorem cols_params (prs : Fin k → Prior) (l : List (P × (Fin k → ℝ))) (d v : Fin k → ℝ) :
    ((cols prs l d v).map fun c => (c.prior.name, Param.prior c.prior)) =
      List.ofFn fun j => ((prs j).name, Param.prior (prs j)) := by
  unfold cols
  rw [List.map_ofFn]
  rfl

theorem cols_names (prs : Fin k → Prior) (l : List (P × (Fin k → ℝ))) (d v : Fin k → ℝ) :
    ((cols prs l d v).map fun c => c.prior.name) = List.ofFn fun j => (prs j).name := by
  unfold cols
  rw [List.map_ofFn]
  rfl

theorem cols_mem {prs : Fin k → Prior} {l : List (P × (Fin k → ℝ))} {d v : Fin k → ℝ} {c : Col}
    (h : c ∈ cols prs l d v) : ∃ j, c = ⟨prs j, l.map fun r => r.2 j, v j, devDraw (prs j).dist (d j)⟩ := by
  obtain ⟨j, hj⟩ := List.mem_ofFn.1 h
  exact ⟨j, hj.symm⟩

theorem cols_length {prs : Fin k → Prior} {l : List (P × (Fin k → ℝ))} {d v : Fin k → ℝ} {c : Col}
    (h : c ∈ cols prs l d v) : c.col.length = l.length := by
  obtain ⟨j, rfl⟩ := cols_mem h
  exact List.length_map ..

theorem get_of_mem : ∀ {ps : ParamList}, (ps.toList.map Prod.fst).Nodup → ∀ {n : String} {p : Param},
    (n, p) ∈ ps.toList → ps.get? n = some p
  | .nil, _, n, p, h => by cases h
  | .cons m q rest, hn, n, p, h => by
    rw [ParamList.toList, List.map_cons, List.nodup_cons] at hn
    rw [ParamList.toList] at h
    rw [ParamList.get?]
    rcases List.mem_cons.1 h with h | h
    · injection h with h1 h2
      rw [if_pos h1.symm, h2]
    · have : m ≠ n := by
        rintro rfl
        exact hn.1 (List.mem_map.2 ⟨_, h, rfl⟩)
      rw [if_neg this]
      exact get_of_mem hn.2 h

/-- The parameters of the space are these priors. -/
structure OnlyPriors (sp : Space) (prs : Fin k → Prior) : Prop where
  params : sp.params.toList = List.ofFn fun j => ((prs j).name, Param.prior (prs j))
  inj : Function.Injective fun j => (prs j).name
  disc : ∀ j, (prs j).name ≠ "discretization"

theorem OnlyPriors.get {sp : Space} {prs : Fin k → Prior} (h : OnlyPriors sp prs) (j : Fin k) :
    sp.params.get? (prs j).name = some (.prior (prs j)) := by
  refine get_of_mem ?_ ?_
  · rw [h.params, List.map_ofFn]
    exact List.nodup_ofFn.2 h.inj
  · rw [h.params]
    exact List.mem_ofFn.2 ⟨j, rfl⟩

theorem OnlyPriors.nodup {sp : Space} {prs : Fin k → Prior} (h : OnlyPriors sp prs) (l : List (P × (Fin k → ℝ)))
    (d v : Fin k → ℝ) : ("discretization" :: (cols prs l d v).map fun c => c.prior.name).Nodup := by
  rw [cols_names]
  refine List.nodup_cons.2 ⟨fun hc => ?_, List.nodup_ofFn.2 h.inj⟩
  obtain ⟨j, hj⟩ := List.mem_ofFn.1 hc
  exact h.disc j hj

/-- No sites are stored. -/
def noSites : List Unit → List (String × PVal) := fun _ => []

/-- Sites on a line, as they are stored. -/
def lineSites : List ℝ → List (String × PVal) := fun xs => [("discretization", .arr (.vec xs))]

/-- Sites in the plane, as they are stored. -/
def planeSites : List (ℝ × ℝ) → List (String × PVal) := fun ps => [("discretization", .arr (.pts ps))]

theorem steps_plain {sp : Space} {prs : Fin k → Prior} (hk : sp.info.kind = .plain) (hp : OnlyPriors sp prs) :
    Steps sp prs noSites (fun _ => .none) Set.univ (Measure.dirac ()) id fun m _ => [indexDraw m] where
  birth := by
    refine .of_forall fun ω => ⟨trivial, fun l s hl hn m d v hs => ?_⟩
    have hd : sp.info.kind.isDisc = false := by rw [hk]; rfl
    have hrun := plainBirth_run (info := sp.info) (ps := sp.params) (s := s) (cs := cols prs l d v)
      (by rw [hl.2, cols_old]; rfl) (fun c hc => (cols_length hc).trans hl.1.symm)
      (fun c hc => by obtain ⟨j, rfl⟩ := cols_mem hc; exact hp.get j)
      (fun c hc => by obtain ⟨j, rfl⟩ := cols_mem hc; exact hs j) (by rw [hl.1]; exact hn) (indexDraw m)
    refine ⟨m % (s.n + 1), .mk (s.n + 1) ((cols prs l d v).map (Col.ins (m % (s.n + 1)))) none, ?_, ?_, fun rest => ?_⟩
    · rw [← hl.1]
      exact Nat.lt_succ_iff.1 (Nat.mod_lt _ (Nat.succ_pos _))
    · refine ⟨?_, ?_⟩
      · rw [length_listInsert, ← hl.1]
        rfl
      · exact cols_ins prs l d v _ ω
    · unfold Space.birth
      rw [hd, if_neg Bool.false_ne_true]
      have := hrun rest
      rw [cols_draw] at this
      exact this
  birth_end := by
    intro l s hl hn
    refine ⟨s, hl, fun rest => ?_⟩
    have hd : sp.info.kind.isDisc = false := by rw [hk]; rfl
    unfold Space.birth plainBirth
    rw [hd, if_neg Bool.false_ne_true, if_pos (hl.1.trans hn)]
    rfl
  death := by
    intro l s hl hn h0 m
    have hd : sp.info.kind.isDisc = false := by rw [hk]; rfl
    have hrun := plainDeath_run (info := sp.info) (s := s) (cs := cols prs l (fun _ => 0) fun _ => 0)
      (by rw [hl.2, cols_old]; rfl) (fun c hc => (cols_length hc).trans hl.1.symm) (by rw [hl.1]; exact hn)
      (by rw [hl.1]; exact h0) (indexDraw m)
    refine ⟨.mk (s.n - 1) ((cols prs l (fun _ => 0) fun _ => 0).map (Col.del (m % s.n))) none, ?_, fun rest => ?_⟩
    · refine ⟨?_, ?_⟩
      · rw [List.length_eraseIdx_of_lt (Nat.mod_lt _ (Nat.pos_of_ne_zero h0)), ← hl.1]
        rfl
      · rw [← hl.1]
        exact cols_del prs l _ _ _
    · unfold Space.death
      rw [hd, if_neg Bool.false_ne_true]
      exact hrun rest
  death_end := by
    intro l s hl hn
    refine ⟨s, hl, fun rest => ?_⟩
    have hd : sp.info.kind.isDisc = false := by rw [hk]; rfl
    unfold Space.death plainDeath
    rw [hd, if_neg Bool.false_ne_true, if_pos (hl.1.trans hn)]
    rfl

theorem disc_birth_end {sp : Space} (hd : sp.info.kind.isDisc = true) {s s' : PSState} (hn : s.n = sp.info.hi)
    (hkd : sp.info.kind.withKd s = .ok s') (rest : List Draw) : sp.birth s rest = (.ok (s', .ninf), rest) := by
  unfold Space.birth
  rw [if_pos hd, if_pos hn]
  refine (M.bind_of rfl).trans ?_
  simp only [hkd]
  exact (M.bind_of rfl).trans rfl

theorem disc_death_end {sp : Space} (hd : sp.info.kind.isDisc = true) {s s' : PSState} (hn : s.n = sp.info.lo)
    (hkd : sp.info.kind.withKd s = .ok s') (rest : List Draw) : sp.death s rest = (.ok (s', .ninf), rest) := by
  unfold Space.death
  rw [if_pos hd, if_pos hn]
  refine (M.bind_of rfl).trans ?_
  simp only [hkd]
  exact (M.bind_of rfl).trans rfl

theorem disc_birth {sp : Space} (hd : sp.info.kind.isDisc = true) {s new s' : PSState} (hn : s.n ≠ sp.info.hi) {lpr : PyF}
    {t rest : List Draw} (h : vorBirth sp s t = (.ok (new, lpr), rest)) (hkd : sp.info.kind.withKd new = .ok s') :
    sp.birth s t = (.ok (s', lpr), rest) := by
  unfold Space.birth
  rw [if_pos hd, if_neg hn]
  refine (M.bind_of h).trans ?_
  simp only [hkd]
  exact (M.bind_of rfl).trans rfl

theorem disc_death {sp : Space} (hd : sp.info.kind.isDisc = true) {s new s' : PSState} (hn : s.n ≠ sp.info.lo) {lpr : PyF}
    {t rest : List Draw} (h : vorDeath sp s t = (.ok (new, lpr), rest)) (hkd : sp.info.kind.withKd new = .ok s') :
    sp.death s t = (.ok (s', lpr), rest) := by
  unfold Space.death
  rw [if_pos hd, if_neg hn]
  refine (M.bind_of h).trans ?_
  simp only [hkd]
  exact (M.bind_of rfl).trans rfl

theorem steps_line {sp : Space} {prs : Fin k → Prior} {v : Vor1} (hk : sp.info.kind = .vor1 v)
    (hfp : sp.info.fromPrior = true) (hp : OnlyPriors sp prs) (hv : v.vmin ≤ v.vmax) :
    Steps sp prs lineSites .one (Set.Icc v.vmin v.vmax) unitLaw (lineSite v) fun _ u => [unitDraw u] := by
  have hd : sp.info.kind.isDisc = true := by rw [hk]; rfl
  have hkd : ∀ s, sp.info.kind.withKd s = .ok s := by
    intro s
    rw [hk]
    rfl
  refine ⟨?_, ?_, ?_, ?_⟩
  · refine .of_forall fun u => ⟨?_, fun l s hl hn m d w hs => ?_⟩
    · have := (unitDraw u).hu
      unfold lineSite
      constructor
      · nlinarith [mul_nonneg (sub_nonneg.2 hv) this.1]
      · nlinarith [mul_le_mul_of_nonneg_left this.2.le (sub_nonneg.2 hv)]
    · obtain ⟨i, hi, hrun⟩ := vorBirth_line (s := s) (cs := cols prs l d w) hk hfp (by rw [hp.params, cols_params])
        (hp.nodup l d w) (xs := l.map Prod.fst) (by rw [hl.2, cols_old]; rfl) (by rw [List.length_map, hl.1])
        (fun c hc => (cols_length hc).trans hl.1.symm) (unitDraw u)
        (fun c hc => by obtain ⟨j, rfl⟩ := cols_mem hc; exact hs j)
      rw [hl.1] at hi
      refine ⟨i, .mk (s.n + 1) (("discretization", .arr (.vec (listInsert (l.map Prod.fst) i (lineSite v u)))) ::
          (cols prs l d w).map (Col.ins i)) none, hi, ⟨?_, ?_⟩,
        fun rest => disc_birth hd (by rw [hl.1]; exact hn) ?_ (hkd _)⟩
      · rw [length_listInsert, ← hl.1]
        rfl
      · rw [listInsert_map, ← cols_ins prs l d w i (lineSite v u)]
        rfl
      · have := hrun rest
        rw [cols_draw] at this
        exact this
  · exact fun l s hl hn => ⟨s, hl, fun rest => disc_birth_end hd (hl.1.trans hn) (hkd s) rest⟩
  · intro l s hl hn h0 m
    have hmod : m % l.length < l.length := Nat.mod_lt _ (Nat.pos_of_ne_zero h0)
    have hrun := vorDeath_run (s := s) (cs := cols prs l (fun _ => 0) fun _ => 0) hfp
      (v0 := .arr (.vec (l.map Prod.fst))) (v0' := .arr (.vec ((l.map Prod.fst).eraseIdx (m % s.n))))
      (m := m % s.n) (by rw [hl.2, cols_old]; rfl) (fun c hc => (cols_length hc).trans hl.1.symm)
      (by rw [hl.1]; exact h0) (indexDraw m) rfl (delOp_num (by rw [List.length_map, hl.1]; exact hmod))
      (by rw [len_vec, List.length_eraseIdx_of_lt (by rw [List.length_map, hl.1]; exact hmod), List.length_map, hl.1])
      ⟨_, rfl⟩
    refine ⟨_, ⟨?_, ?_⟩, fun rest => disc_death hd (by rw [hl.1]; exact hn) (hrun rest) (hkd _)⟩
    · rw [List.length_eraseIdx_of_lt hmod, ← hl.1]
      rfl
    · rw [← cols_del prs l (fun _ => 0) fun _ => 0, ← List.eraseIdx_map, ← hl.1]
      rfl
  · exact fun l s hl hn => ⟨s, hl, fun rest => disc_death_end hd (hl.1.trans hn) (hkd s) rest⟩

theorem withKd_plane {v : Vor2} {n : ℕ} {ps : List (ℝ × ℝ)} {vals : List (String × PVal)} {kd : Option (List (ℝ × ℝ))} :
    ∃ kd', (Kind.vor2 v).withKd (.mk n (("discretization", .arr (.pts ps)) :: vals) kd) =
      .ok (.mk n (("discretization", .arr (.pts ps)) :: vals) kd') := by
  unfold Kind.withKd
  by_cases h : v.kdtree = true
  · refine ⟨some ps, ?_⟩
    simp only [h, if_true]
    unfold addKd PSState.get
    simp [PSState.vals, dget, PSState.n]
  · exact ⟨kd, if_neg h⟩

theorem delOp_pts {v : Vor2} {ps : List (ℝ × ℝ)} {i : ℕ} (h : i < ps.length) :
    delOp (.vor2 v) i (.arr (.pts ps)) = .ok (.arr (.pts (ps.eraseIdx i))) := if_pos h

theorem steps_plane {sp : Space} {prs : Fin k → Prior} {v : Vor2} (hk : sp.info.kind = .vor2 v)
    (hfp : sp.info.fromPrior = true) (hp : OnlyPriors sp prs) (h1 : v.vmin.1 < v.vmax.1) (h2 : v.vmin.2 < v.vmax.2)
    (hD : MeasurableSet (domain2 v)) (hvol : volume (domain2 v) ≠ 0) :
    Steps sp prs planeSites .two (domain2 v) (Measure.infinitePi fun _ : ℕ => unitLaw.prod unitLaw) (planeSite v)
      fun _ ω => planeTape v ω := by
  have hd : sp.info.kind.isDisc = true := by rw [hk]; rfl
  have hkd : ∀ l s, Holds planeSites prs l s → ∃ s', sp.info.kind.withKd s = .ok s' ∧ Holds planeSites prs l s' := by
    rintro l ⟨n, vals, kd⟩ ⟨ha, hb⟩
    obtain ⟨kd', h⟩ := withKd_plane (v := v) (n := n) (ps := l.map Prod.fst)
      (vals := List.ofFn fun j => ((prs j).name, .arr (.vec (l.map fun r => r.2 j)))) (kd := kd)
    have hb' : vals = ("discretization", .arr (.pts (l.map Prod.fst))) ::
      List.ofFn fun j => ((prs j).name, .arr (.vec (l.map fun r => r.2 j))) := hb
    rw [hk, hb']
    exact ⟨_, h, ha, rfl⟩
  refine ⟨?_, ?_, ?_, ?_⟩
  · refine (some_accepted _ (boxSite_meas v) hD (planeSite_ne h1 h2 hD hvol)).mono fun ω hω => ?_
    refine ⟨(firstIn_spec hω).1, fun l s hl hn m d w hs => ?_⟩
    have hrun := vorBirth_plane (s := s) (cs := cols prs l d w) hk hfp (by rw [hp.params, cols_params])
      (hp.nodup l d w) (ps := l.map Prod.fst) (by rw [hl.2, cols_old]; rfl) (by rw [List.length_map, hl.1])
      (fun c hc => (cols_length hc).trans hl.1.symm) (planeTape v ω) (planeSite v ω) (sampleSite_run h1.le h2.le hω)
      (fun c hc => by obtain ⟨j, rfl⟩ := cols_mem hc; exact hs j)
    have hnew : Holds planeSites prs (listInsert l s.n (planeSite v ω, w)) (.mk (s.n + 1)
        (("discretization", .arr (.pts (listInsert (l.map Prod.fst) s.n (planeSite v ω)))) ::
        (cols prs l d w).map (Col.ins s.n)) none) := by
      refine ⟨?_, ?_⟩
      · rw [length_listInsert, ← hl.1]
        rfl
      · rw [listInsert_map, ← cols_ins prs l d w s.n (planeSite v ω)]
        rfl
    obtain ⟨s', ha, hb⟩ := hkd _ _ hnew
    refine ⟨s.n, s', hl.1.le, hb, fun rest => disc_birth hd (by rw [hl.1]; exact hn) ?_ ha⟩
    have := hrun rest
    rw [cols_draw, ← List.append_assoc] at this
    exact this
  · intro l s hl hn
    obtain ⟨s', ha, hb⟩ := hkd _ _ hl
    exact ⟨s', hb, fun rest => disc_birth_end hd (hl.1.trans hn) ha rest⟩
  · intro l s hl hn h0 m
    have hmod : m % l.length < l.length := Nat.mod_lt _ (Nat.pos_of_ne_zero h0)
    have hrun := vorDeath_run (s := s) (cs := cols prs l (fun _ => 0) fun _ => 0) hfp
      (v0 := .arr (.pts (l.map Prod.fst))) (v0' := .arr (.pts ((l.map Prod.fst).eraseIdx (m % s.n))))
      (m := m % s.n) (by rw [hl.2, cols_old]; rfl) (fun c hc => (cols_length hc).trans hl.1.symm)
      (by rw [hl.1]; exact h0) (indexDraw m) rfl (by rw [hk]; exact delOp_pts (by rw [List.length_map, hl.1]; exact hmod))
      (by rw [len_pts, List.length_eraseIdx_of_lt (by rw [List.length_map, hl.1]; exact hmod), List.length_map, hl.1])
      ⟨_, rfl⟩
    have hnew : Holds planeSites prs (l.eraseIdx (m % l.length)) (.mk (s.n - 1)
        (("discretization", .arr (.pts ((l.map Prod.fst).eraseIdx (m % s.n)))) ::
        (cols prs l (fun _ => 0) fun _ => 0).map (Col.del (m % s.n))) none) := by
      refine ⟨?_, ?_⟩
      · rw [List.length_eraseIdx_of_lt hmod, ← hl.1]
        rfl
      · rw [← cols_del prs l (fun _ => 0) fun _ => 0, ← List.eraseIdx_map, ← hl.1]
        rfl
    obtain ⟨s', ha, hb⟩ := hkd _ _ hnew
    exact ⟨s', hb, fun rest => disc_death hd (by rw [hl.1]; exact hn) (hrun rest) ha⟩
  · intro l s hl hn
    obtain ⟨s', ha, hb⟩ := hkd _ _ hl
    exact ⟨s', hb, fun rest => disc_death_end hd (hl.1.trans hn) ha rest⟩

open Classical in
/-- The model that a state stands for. -/
noncomputable def decode (col : List P → List (String × PVal)) (prs : Fin k → Prior) (s : PSState) :
    Tuple (P × (Fin k → ℝ)) :=
  if h : ∃ l, Holds col prs l s then ofRows h.choose else ofRows []

theorem rows_ext {l l' : List (P × (Fin k → ℝ))} (h1 : l.map Prod.fst = l'.map Prod.fst)
    (h2 : ∀ j, (l.map fun r => r.2 j) = l'.map fun r => r.2 j) : l = l' := by
  have hlen : l.length = l'.length := by
    have := congrArg List.length h1
    simpa using this
  refine List.ext_getElem hlen fun i hi hi' => ?_
  refine Prod.ext ?_ (funext fun j => ?_)
  · have := List.getElem_of_eq h1 (i := i) (by simpa using hi)
    simpa using this
  · have := List.getElem_of_eq (h2 j) (i := i) (by simpa using hi)
    simpa using this

theorem decode_of {col : List P → List (String × PVal)} (hlen : ∀ a b, a.length = b.length → (col a).length = (col b).length)
    (hinj : ∀ a b, a.length = b.length → col a = col b → a = b) {prs : Fin k → Prior} (l : List (P × (Fin k → ℝ))) (s : PSState)
    (h : Holds col prs l s) : decode col prs s = ofRows l := by
  have hex : ∃ l, Holds col prs l s := ⟨l, h⟩
  unfold decode
  rw [dif_pos hex]
  have h' := hex.choose_spec
  congr 1
  have hl : hex.choose.length = l.length := h'.1.symm.trans h.1
  have hl' : (hex.choose.map Prod.fst).length = (l.map Prod.fst).length := by
    rw [List.length_map, List.length_map, hl]
  have e := h'.2.symm.trans h.2
  obtain ⟨e1, e2⟩ := List.append_inj e (hlen _ _ hl')
  refine rows_ext (hinj _ _ hl' e1) fun j => ?_
  have := congrFun (List.ofFn_injective e2) j
  injection this with _ h3
  injection h3 with h4
  injection h4

/-- C23 for a parameter space: with the births and the deaths of the code, one iteration of the chain satisfies detailed
balance with respect to the trans-dimensional prior times the likelihood to the power `1 / T`, and preserves it.
(With the log likelihood 0 this is the prior.) -/
theorem C23_plain {E : Type} (sp : Space) (prs : Fin k → Prior) (hk : sp.info.kind = .plain) (hp : OnlyPriors sp prs)
    (hlh : sp.info.lo < sp.info.hi) (dens : Fin k → Unit → ℝ → ℝ)
    (hd : ∀ j, HasDensity (prs j) (fun _ => .none) Set.univ (dens j))
    (logLik : Tuple (Unit × (Fin k → ℝ)) → ℝ) (hℓ : Measurable logLik) (hℓr : ∀ x y, SameRows x y → logLik x = logLik y)
    (T : ℝ) (state : Tuple (Unit × (Fin k → ℝ)) → Chain PSState Unit E)
    (hstate : ∀ x, Holds noSites prs (List.ofFn x.2) (state x).cur) (htemp : ∀ x, (state x).temp = T) :
    DetailedBalanceUpTo SameRows (posterior (transPrior (rowLaw (Measure.dirac ()) dens) sp.info.lo sp.info.hi) logLik T)
      (fun x => IterationLaw (birthDeathChain sp (decode noSites prs) logLik)
        (birthDeathDraws sp prs fun m _ => [indexDraw m]) (drawsLaw prs sp.info.hi (Measure.dirac ()))
        (decode noSites prs) (state x)) ∧
    PreservesUpTo SameRows (posterior (transPrior (rowLaw (Measure.dirac ()) dens) sp.info.lo sp.info.hi) logLik T)
      (fun x => IterationLaw (birthDeathChain sp (decode noSites prs) logLik)
        (birthDeathDraws sp prs fun m _ => [indexDraw m]) (drawsLaw prs sp.info.hi (Measure.dirac ()))
        (decode noSites prs) (state x)) :=
  birthDeath_balance (steps_plain hk hp) hlh MeasurableSet.univ measurable_id Measure.map_id dens hd _
    (decode_of (fun _ _ _ => rfl) fun a b h _ => List.ext_getElem h fun _ _ _ => rfl) logLik hℓ hℓr T state hstate htemp

/-- C23 for a `Voronoi1D`: the sites are uniform between the bounds. -/
theorem C23_line {E : Type} (sp : Space) (prs : Fin k → Prior) (v : Vor1) (hk : sp.info.kind = .vor1 v)
    (hfp : sp.info.fromPrior = true) (hp : OnlyPriors sp prs) (hv : v.vmin < v.vmax)
    (hlh : sp.info.lo < sp.info.hi) (dens : Fin k → ℝ → ℝ → ℝ)
    (hd : ∀ j, HasDensity (prs j) .one (Set.Icc v.vmin v.vmax) (dens j))
    (logLik : Tuple (ℝ × (Fin k → ℝ)) → ℝ) (hℓ : Measurable logLik) (hℓr : ∀ x y, SameRows x y → logLik x = logLik y)
    (T : ℝ) (state : Tuple (ℝ × (Fin k → ℝ)) → Chain PSState Unit E)
    (hstate : ∀ x, Holds lineSites prs (List.ofFn x.2) (state x).cur) (htemp : ∀ x, (state x).temp = T) :
    DetailedBalanceUpTo SameRows
      (posterior (transPrior (rowLaw volume[|Set.Icc v.vmin v.vmax] dens) sp.info.lo sp.info.hi) logLik T)
      (fun x => IterationLaw (birthDeathChain sp (decode lineSites prs) logLik)
        (birthDeathDraws sp prs fun _ u => [unitDraw u]) (drawsLaw prs sp.info.hi unitLaw)
        (decode lineSites prs) (state x)) ∧
    PreservesUpTo SameRows
      (posterior (transPrior (rowLaw volume[|Set.Icc v.vmin v.vmax] dens) sp.info.lo sp.info.hi) logLik T)
      (fun x => IterationLaw (birthDeathChain sp (decode lineSites prs) logLik)
        (birthDeathDraws sp prs fun _ u => [unitDraw u]) (drawsLaw prs sp.info.hi unitLaw)
        (decode lineSites prs) (state x)) := by
  have hprob : IsProbabilityMeasure volume[|Set.Icc v.vmin v.vmax] := by
    rw [← lineSite_law hv]
    exact Measure.isProbabilityMeasure_map (lineSite_meas v).aemeasurable
  refine birthDeath_balance (steps_line hk hfp hp hv.le) hlh measurableSet_Icc (lineSite_meas v) (lineSite_law hv) dens hd _
    (decode_of (fun _ _ _ => rfl) fun a b _ h => ?_) logLik hℓ hℓr T state hstate htemp
  unfold lineSites at h
  simpa using h

/-- C23 for a `Voronoi2D`, with or without a polygon: the sites are uniform in the domain. -/
theorem C23_plane {E : Type} (sp : Space) (prs : Fin k → Prior) (v : Vor2) (hk : sp.info.kind = .vor2 v)
    (hfp : sp.info.fromPrior = true) (hp : OnlyPriors sp prs) (h1 : v.vmin.1 < v.vmax.1) (h2 : v.vmin.2 < v.vmax.2)
    (hD : MeasurableSet {q | InDomain v q}) (hvol : volume {q | InDomain v q} ≠ 0)
    (hlh : sp.info.lo < sp.info.hi) (dens : Fin k → ℝ × ℝ → ℝ → ℝ)
    (hd : ∀ j, HasDensity (prs j) .two {q | InDomain v q} (dens j))
    (logLik : Tuple ((ℝ × ℝ) × (Fin k → ℝ)) → ℝ) (hℓ : Measurable logLik)
    (hℓr : ∀ x y, SameRows x y → logLik x = logLik y)
    (T : ℝ) (state : Tuple ((ℝ × ℝ) × (Fin k → ℝ)) → Chain PSState Unit E)
    (hstate : ∀ x, Holds planeSites prs (List.ofFn x.2) (state x).cur) (htemp : ∀ x, (state x).temp = T) :
    DetailedBalanceUpTo SameRows
      (posterior (transPrior (rowLaw volume[|{q | InDomain v q}] dens) sp.info.lo sp.info.hi) logLik T)
      (fun x => IterationLaw (birthDeathChain sp (decode planeSites prs) logLik)
        (birthDeathDraws sp prs fun _ ω => planeTape v ω)
        (drawsLaw prs sp.info.hi (Measure.infinitePi fun _ : ℕ => unitLaw.prod unitLaw))
        (decode planeSites prs) (state x)) ∧
    PreservesUpTo SameRows
      (posterior (transPrior (rowLaw volume[|{q | InDomain v q}] dens) sp.info.lo sp.info.hi) logLik T)
      (fun x => IterationLaw (birthDeathChain sp (decode planeSites prs) logLik)
        (birthDeathDraws sp prs fun _ ω => planeTape v ω)
        (drawsLaw prs sp.info.hi (Measure.infinitePi fun _ : ℕ => unitLaw.prod unitLaw))
        (decode planeSites prs) (state x)) := by
  have hmeas : Measurable (planeSite v) := firstIn_meas (boxSite_meas v) hD
  have hprob : IsProbabilityMeasure volume[|domain2 v] := by
    rw [← planeSite_law h1 h2 hD hvol]
    exact Measure.isProbabilityMeasure_map hmeas.aemeasurable
  refine birthDeath_balance (σs := volume[|domain2 v]) (steps_plane hk hfp hp h1 h2 hD hvol) hlh hD hmeas
    (planeSite_law h1 h2 hD hvol) dens hd _
    (decode_of (fun _ _ _ => rfl) fun a b _ h => ?_) logLik hℓ hℓr T state hstate htemp
  unfold planeSites at h
  simpa using h

end classes

/-! ### Non-trivial instances -/

section Examples

/-- A uniform prior and a Gaussian one. -/
noncomputable def exPriors23 : Fin 2 → Prior
  | 0 => { name := "a", dist := .uniform (.const 0) (.const 2), std := .const 1, stdBirth := .const 1, hasPosition := false }
  | 1 => { name := "b", dist := .gaussian (.const 1) (.const 3), std := .const 1, stdBirth := .const 1, hasPosition := false }

/-- Their densities. -/
noncomputable def exDens23 {P : Type} : Fin 2 → P → ℝ → ℝ
  | 0 => fun _ => uniformPDF 0 2
  | 1 => fun _ => normalPDF 1 3

/-- A trans-dimensional space with these parameters, between 1 and 10 dimensions. -/
noncomputable def exSpace23 (k : Kind) : Space :=
  .mk { name := "s", kind := k, fromPrior := true }
    (.cons "a" (.prior (exPriors23 0)) (.cons "b" (.prior (exPriors23 1)) .nil))

theorem ex23_only (k : Kind) : OnlyPriors (exSpace23 k) exPriors23 where
  params := rfl
  inj := by
    intro i j h
    fin_cases i <;> fin_cases j <;> first | rfl | exact absurd h (by decide +kernel)
  disc := by
    intro j
    fin_cases j <;> decide +kernel

theorem ex23_dens {P : Type} [MeasurableSpace P] (loc : P → Pos) (dom : Set P) (j : Fin 2) :
    HasDensity (exPriors23 j) loc dom (exDens23 j) := by
  fin_cases j
  · exact ⟨fun _ => 0, fun _ => 2, measurable_const, measurable_const, fun x _ => ⟨rfl, rfl, by norm_num⟩, rfl⟩
  · exact ⟨fun _ => 1, fun _ => 3, measurable_const, measurable_const, fun x _ => ⟨rfl, rfl, by norm_num⟩, rfl⟩

/-- The state with the rows of a model. -/
noncomputable def exState23 {P : Type} (col : List P → List (String × PVal)) (c : Chain PSState Unit Unit)
    (x : Tuple (P × (Fin 2 → ℝ))) : Chain PSState Unit Unit :=
  { c with cur := .mk x.1 (col ((List.ofFn x.2).map Prod.fst) ++
      List.ofFn fun j => ((exPriors23 j).name, .arr (.vec ((List.ofFn x.2).map fun r => r.2 j)))) none, temp := 2 }

theorem ex23_state {P : Type} (col : List P → List (String × PVal)) (c : Chain PSState Unit Unit)
    (x : Tuple (P × (Fin 2 → ℝ))) : Holds col exPriors23 (List.ofFn x.2) (exState23 col c x).cur :=
  ⟨(List.length_ofFn ..).symm, rfl⟩

/-- A log likelihood that depends on the number of dimensions. -/
noncomputable def exLik23 {P : Type} (x : Tuple (P × (Fin 2 → ℝ))) : ℝ := -(x.1 : ℝ)

theorem ex23_lik {P : Type} [MeasurableSpace P] : Measurable (exLik23 (P := P)) :=
  (measurable_of_countable (fun n : ℕ => -(n : ℝ))).comp dim_meas

theorem ex23_same {P : Type} (x y : Tuple (P × (Fin 2 → ℝ))) (h : SameRows x y) : exLik23 x = exLik23 y := by
  unfold exLik23
  rw [SameRows.dim h]

example (c : Chain PSState Unit Unit) := C23_plain (exSpace23 .plain) exPriors23 rfl (ex23_only _) (by decide)
  exDens23 (ex23_dens _ _) exLik23 ex23_lik ex23_same 2 (exState23 noSites c) (ex23_state _ c) fun _ => rfl

example (c : Chain PSState Unit Unit) (s : ArgSort) := C23_line (exSpace23 (.vor1 ⟨0, 10, 1, s⟩)) exPriors23 ⟨0, 10, 1, s⟩
  rfl rfl (ex23_only _) (by norm_num) (by change 1 < 10; decide) exDens23 (ex23_dens _ _) exLik23 ex23_lik ex23_same 2
  (exState23 lineSites c) (ex23_state _ c) fun _ => rfl

/-- A tessellation of the triangle below the diagonal of the unit square. -/
noncomputable def exVor23 : Vor2 where
  vmin := (0, 0)
  vmax := (1, 1)
  std := (1, 1)
  polygon := some fun q => 0 ≤ q.2 ∧ q.2 ≤ q.1 ∧ q.1 ≤ 1
  bounds := by
    intro inside h p hp
    injection h with h
    subst h
    exact ⟨⟨le_trans hp.1 hp.2.1, hp.2.2⟩, hp.1, le_trans hp.2.1 hp.2.2⟩
  kdtree := true

theorem ex23_domain : {q | InDomain exVor23 q} = {q : ℝ × ℝ | 0 ≤ q.2 ∧ q.2 ≤ q.1 ∧ q.1 ≤ 1} := by
  ext q
  constructor
  · exact fun h => h.2 _ rfl
  · exact fun h => ⟨exVor23.bounds _ rfl q h, fun inside hi => by injection hi with hi; exact hi ▸ h⟩

example (c : Chain PSState Unit Unit) := C23_plane (exSpace23 (.vor2 exVor23)) exPriors23 exVor23
  rfl rfl (ex23_only _) (by change (0 : ℝ) < 1; norm_num) (by change (0 : ℝ) < 1; norm_num)
  (by
    rw [ex23_domain]
    exact (measurableSet_le measurable_const measurable_snd).inter
      ((measurableSet_le measurable_snd measurable_fst).inter (measurableSet_le measurable_fst measurable_const)))
  (by
    rw [ex23_domain]
    refine ne_of_gt (lt_of_lt_of_le ?_ (measure_mono (s := Set.Icc (1 / 2) 1 ×ˢ Set.Icc 0 (1 / 2)) ?_))
    · have hv : (volume : Measure (ℝ × ℝ)) = (volume : Measure ℝ).prod volume := rfl
      rw [hv, Measure.prod_prod, Real.volume_Icc, Real.volume_Icc]
      exact ENNReal.mul_pos (by norm_num) (by norm_num)
    · rintro ⟨a, b⟩ ⟨⟨h1, h2⟩, h3, h4⟩
      exact ⟨h3, le_trans h4 h1, h2⟩)
  (by change 1 < 10; decide) exDens23 (ex23_dens _ _) exLik23 ex23_lik ex23_same 2
  (exState23 planeSites c) (ex23_state _ c) fun _ => rfl

end Examples

end BB.Props
