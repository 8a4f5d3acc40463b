import Verif.Props.C84_WholeStart
import Verif.Props.C42_Annealing
import Verif.Lemmas.Annealed

/-!
# C85 — simulated annealing of whole inversions

`SimulatedAnnealing` lowers the temperature from its starting value to one during the burn-in.  From the start of the inversion (C84), any
number of iterations of it are completed with probability one; whatever the cooling has done to the model, the models converge afterwards to
what plain sampling converges to; and the averages over the saved samples converge.  If the inversion is run a second time, the starting
temperature is set again and, since the burn-in is over, it is never lowered: nothing is saved.
-/

namespace BB.Props

open BB Spec Lemmas MeasureTheory ProbabilityTheory

variable {E : Type} {p : Problem} {S : ℕ → Beginning} {logLik : Whole p (fun i => (S i).block) → ℝ}

/-- The functions that simulated annealing has called lower the temperature. -/
theorem annealing_cools (p : Problem) (T0 rate : ℝ) (b : ℕ) {d : SamplerDef State Store E} (h1 : d.extraBegin = []) (h2 : d.extraEnd = []) :
    Cools p T0 rate b (annealing p.cfg T0 rate b d).beginIteration (annealing p.cfg T0 rate b d).endIteration := by
  constructor
  · intro c t
    unfold SamplerDef.beginIteration
    rw [Act.bind_run]
    change runAll d.extraBegin (cooled p T0 rate b c) t = _
    rw [h1]
    rfl
  · intro c t
    unfold SamplerDef.endIteration
    rw [Act.bind_run]
    change runAll d.extraEnd c t = _
    rw [h2]
    rfl

theorem cooled_new {B : ℕ → Block} {b : ℕ} {c : Chain State Store E} (T0 : ℝ) (h1 : Ready p B 1 c) (h2 : c.saved = []) (h3 : c.total = 0) :
    Cooled p B b 0 (c.setTemp p.cfg T0) :=
  ⟨⟨T0, ⟨h1.holds, h1.cache, h1.extra, rfl, h1.proposed, h1.accepted⟩, fun h => by omega⟩, h3, fun _ => h2⟩

/-- Any number of iterations of simulated annealing after the start are completed. -/
theorem C85_completed (h : AnyProblem p (fun i => (S i).block) logLik) (hn : PlainNames p) (hS : AllStart p S) {b : ℕ} {s : ℤ} (hs : s ≠ 0)
    {T0 : ℝ} (hT : 0 < T0) {d : SamplerDef State Store E} (hd1 : d.extraBegin = []) (hd2 : d.extraEnd = []) (w : E) (n : ℕ) :
    newChainLaw p S w (fun c => HookedLaw p.cfg b s (annealing p.cfg T0 (Real.log T0 / b) b d).beginIteration
      (annealing p.cfg T0 (Real.log T0 / b) b d).endIteration (wholeDraws p fun i => (S i).block) (wholeLaw p fun i => (S i).block)
      (fun _ => True) n (c.setTemp p.cfg T0)) = 1 := by
  obtain ⟨-, -, -, hp, -⟩ := whole_start h hS
  rw [newChain_mean h hS w _ (fun _ => 1) measurable_const, lintegral_one, measure_univ]
  exact (annealed_complete h hn hT.ne' (annealing_cools p T0 _ b hd1 hd2) hs n).mono
    fun x hx c h1 h2 h3 h4 => hx _ (cooled_new T0 h1 h2 h3) h4

/-- After the start and the cooling, the models converge. -/
theorem C85_converges (h : InversionOf p (fun i => (S i).block) Roaming logLik) (hn : PlainNames p) (hS : AllStart p S) {b : ℕ} {s : ℤ}
    (hs : s ≠ 0) {T0 : ℝ} (hT : 0 < T0) {d : SamplerDef State Store E} (hd1 : d.extraBegin = []) (hd2 : d.extraEnd = [])
    (hfin : posterior (wholePrior p fun i => (S i).block) logLik 1 Set.univ ≠ ⊤) (w : E) (ε : ℝ) (hε : 0 < ε) :
    ∃ n₀, ∀ n ≥ n₀, ∀ A, MeasurableSet A → Invariant SameWhole A →
      |(newChainLaw p S w (fun c => HookedLaw p.cfg b s (annealing p.cfg T0 (Real.log T0 / b) b d).beginIteration
          (annealing p.cfg T0 (Real.log T0 / b) b d).endIteration (wholeDraws p fun i => (S i).block) (wholeLaw p fun i => (S i).block)
          (fun c' => wholeOf p (fun i => (S i).block) c'.cur.params ∈ A) n (c.setTemp p.cfg T0))).toReal -
        (posterior ((wholePrior p fun i => (S i).block).withDensity fun x => ENNReal.ofReal (wholeStaying p (fun i => (S i).block) x))
            logLik 1 A /
          posterior ((wholePrior p fun i => (S i).block).withDensity fun x => ENNReal.ofReal (wholeStaying p (fun i => (S i).block) x))
            logLik 1 Set.univ).toReal| ≤ ε := by
  have ha := any_of_whole (inversion_mono (fun _ _ => roaming_modelled) h)
  obtain ⟨-, -, -, hp, hac, -⟩ := whole_start ha hS
  obtain ⟨n₀, h₀⟩ := annealed_limit h hn hT.ne' (annealing_cools p T0 (Real.log T0 / b) b hd1 hd2) hs hfin (firstLaw p S) hac hε
  refine ⟨n₀, fun n hn' A hA hAr => ?_⟩
  obtain ⟨g, hg, h1, h2⟩ := h₀ n hn' A hA hAr
  rw [newChain_mean ha hS w _ g hg]
  · exact h2
  · exact h1.mono fun x hx c g1 g2 g3 g4 => hx _ (cooled_new T0 g1 g2 g3) g4

/-- After the start and the cooling, the averages over the saved samples converge to the mean of the distribution that the iterations at
temperature one preserve. -/
theorem C85_averages (h : InversionOf p (fun i => (S i).block) Roaming logLik) (hn : PlainNames p) (hS : AllStart p S) {b : ℕ} {s : ℤ}
    (hs : s ≠ 0) {T0 : ℝ} (hT : 0 < T0) {d : SamplerDef State Store E} (hd1 : d.extraBegin = []) (hd2 : d.extraEnd = [])
    (hfin : posterior (wholePrior p fun i => (S i).block) logLik 1 Set.univ ≠ ⊤) (w : E)
    (f : Whole p (fun i => (S i).block) → ℝ) (hf : Measurable f) (C : ℝ) (hC : ∀ x, |f x| ≤ C)
    (hfr : ∀ x y, SameWhole x y → f x = f y) (ε δ : ℝ) (hε : 0 < ε) (hδ : 0 < δ) :
    ∃ n₀, ∀ n ≥ n₀, 1 - ENNReal.ofReal ε ≤ newChainLaw p S w (fun c =>
      HookedLaw p.cfg b s (annealing p.cfg T0 (Real.log T0 / b) b d).beginIteration
        (annealing p.cfg T0 (Real.log T0 / b) b d).endIteration (wholeDraws p fun i => (S i).block) (wholeLaw p fun i => (S i).block)
        (fun c' => ∃ sts, SavesStates p [] c'.saved sts ∧ (∀ st ∈ sts, HoldsAll p (fun i => (S i).block) st.params) ∧ sts ≠ [] ∧
          |averageModel p (fun i => (S i).block) f sts - meanOf (wholeSampled p (fun i => (S i).block) logLik 1) f| ≤ δ) n
        (c.setTemp p.cfg T0)) := by
  have ha := any_of_whole (inversion_mono (fun _ _ => roaming_modelled) h)
  obtain ⟨-, -, -, hp, hac, -⟩ := whole_start ha hS
  obtain ⟨n₀, h₀⟩ := annealed_averaging h hn hT.ne' (annealing_cools p T0 (Real.log T0 / b) b hd1 hd2) hs hfin (firstLaw p S) hac ⟨hf, C, hC⟩
    hfr hε hδ
  refine ⟨n₀, fun n hn' => ?_⟩
  obtain ⟨g, hg, h1, h2⟩ := h₀ n hn'
  refine h1.trans (newChain_bound ha hS w _ g hg ?_)
  exact h2.mono fun x hx c g1 g2 g3 g4 => hx _ (cooled_new T0 g1 g2 g3) g4

/-- Without tessellations and with known noise, the means are those of the posterior. -/
theorem C85_posterior (h : InversionOf p (fun i => (S i).block) Roaming logLik) (hn : PlainNames p) (hS : AllStart p S)
    (hplain : ∀ kv ∈ p.spaces, kv.2.info.kind = .plain) (hknown : p.hier = []) {b : ℕ} {s : ℤ}
    (hs : s ≠ 0) {T0 : ℝ} (hT : 0 < T0) {d : SamplerDef State Store E} (hd1 : d.extraBegin = []) (hd2 : d.extraEnd = [])
    (hfin : posterior (wholePrior p fun i => (S i).block) logLik 1 Set.univ ≠ ⊤) (w : E)
    (f : Whole p (fun i => (S i).block) → ℝ) (hf : Measurable f) (C : ℝ) (hC : ∀ x, |f x| ≤ C)
    (hfr : ∀ x y, SameWhole x y → f x = f y) (ε δ : ℝ) (hε : 0 < ε) (hδ : 0 < δ) :
    ∃ n₀, ∀ n ≥ n₀, 1 - ENNReal.ofReal ε ≤ newChainLaw p S w (fun c =>
      HookedLaw p.cfg b s (annealing p.cfg T0 (Real.log T0 / b) b d).beginIteration
        (annealing p.cfg T0 (Real.log T0 / b) b d).endIteration (wholeDraws p fun i => (S i).block) (wholeLaw p fun i => (S i).block)
        (fun c' => ∃ sts, SavesStates p [] c'.saved sts ∧ (∀ st ∈ sts, HoldsAll p (fun i => (S i).block) st.params) ∧ sts ≠ [] ∧
          |averageModel p (fun i => (S i).block) f sts - meanOf (posterior (wholePrior p fun i => (S i).block) logLik 1) f| ≤ δ) n
        (c.setTemp p.cfg T0)) := by
  have hw : WholeProblem p (fun i => (S i).block) logLik := inversion_mono (fun _ _ => roaming_modelled) h
  have hpl : ∀ (i : ℕ) (nm : String) (sp : Space), p.spaces[i]? = some (nm, sp) → sp.info.kind = .plain :=
    fun i nm sp hi => hplain _ (List.mem_of_getElem? hi)
  have e : (wholePrior p fun i => (S i).block).withDensity (fun x => ENNReal.ofReal (wholeStaying p (fun i => (S i).block) x)) =
      wholePrior p fun i => (S i).block := by
    simp only [wholeStaying_one hw hpl hknown, ENNReal.ofReal_one]
    exact withDensity_one
  have := C85_averages h hn hS hs hT hd1 hd2 hfin w f hf C hC hfr ε δ hε hδ (b := b)
  unfold wholeSampled at this
  rw [e] at this
  exact this

theorem stuck {T : Type} {σ : Type} {cfg : ChainCfg T σ} {T0 rate : ℝ} {b : ℕ} {s : ℤ} {d : SamplerDef T σ E} (hd1 : d.extraBegin = [])
    (hd2 : d.extraEnd = []) : ∀ n {c c' : Chain T σ E} {t t' : List Draw} {evs : List (Event T)}, b < c.total → c.temp ≠ 1 →
      Chain.advance cfg b s (annealing cfg T0 rate b d).beginIteration (annealing cfg T0 rate b d).endIteration n c t = (.ok evs, c', t') →
      c'.saved = c.saved
  | 0, c, c', t, t', evs, _, _, h => by
    cases h
    rfl
  | n + 1, c, c', t, t', evs, hb, hT, h => by
    unfold Chain.advance at h
    obtain ⟨ev, c1, t1, h1, h⟩ := Act.bind_ok.1 h
    obtain ⟨evs', c2, t2, h2, h⟩ := Act.bind_ok.1 h
    obtain ⟨-, rfl, -⟩ : _ ∧ c2 = c' ∧ _ := by simpa using Prod.mk.inj h
    obtain ⟨d1, d2, d3, t3, t4, b1, b2, b3, b4⟩ := (iteration_ok _).1 h1
    have e1 := ((setFlag_ok).1 b1).2.2
    have e2 : d2 = d1 := by
      unfold SamplerDef.beginIteration at b2
      rw [Act.bind_run] at b2
      change runAll d.extraBegin (if (d1.total : ℤ) < b then _ else if (d1.total : ℤ) = b then _ else d1) t = _ at b2
      have ht : d1.total = c.total := by rw [e1]
      rw [hd1, ht, if_neg (by omega), if_neg (by omega)] at b2
      exact (Prod.mk.inj (Prod.mk.inj b2).2).1.symm
    have e3 : c1 = d3 := by
      unfold SamplerDef.endIteration at b4
      rw [Act.bind_run] at b4
      change runAll d.extraEnd d3 t4 = _ at b4
      rw [hd2] at b4
      exact (Prod.mk.inj (Prod.mk.inj b4).2).1.symm
    subst e2 e3
    have hn := next_effect _ b3
    have hT2 : d2.temp ≠ 1 := by rw [e1]; exact hT
    have hs : c1.saved = c.saved := by
      have := hn.saved
      rw [if_neg (fun hc => hT2 hc.2)] at this
      rw [this, e1]
    have := stuck hd1 hd2 n (by rw [hn.total, e1]; exact Nat.lt_succ_of_lt hb) (by rw [hn.temp]; exact hT2) h2
    rw [this, hs]

/-- If simulated annealing is run a second time, the chain is set to the starting temperature, and nothing is saved. -/
theorem C85_again {T : Type} {σ : Type} {cfg : ChainCfg T σ} {T0 : ℝ} (hT : T0 ≠ 1) {b : ℕ} {s : ℤ} {d : SamplerDef T σ E}
    (hd1 : d.extraBegin = []) (hd2 : d.extraEnd = []) {c c' : Chain T σ E} (hb : b < c.total) {n : ℕ} {t t' : List Draw} {evs : List (Event T)}
    (h : Chain.advance cfg b s (annealing cfg T0 (Real.log T0 / b) b d).beginIteration
      (annealing cfg T0 (Real.log T0 / b) b d).endIteration n (c.setTemp cfg T0) t = (.ok evs, c', t')) :
    c'.saved = c.saved := stuck (c := c.setTemp cfg T0) hd1 hd2 n hb hT h

/-! ### examples -/

section Examples

/-- A sampler without functions of the user. -/
def ex85d : SamplerDef State Store Unit where
  onInit := Act.skip
  onBegin := Act.skip
  onEnd := Act.skip
  onEndAdvance := Act.skip

example (s : ArgSort) := C85_completed (ex84_any s) (ex79_names s) (ex84_all s) (b := 10) (s := 5) (by norm_num) (T0 := 3) (by norm_num)
  (d := ex85d) rfl rfl () 100

example (s : ArgSort) := C85_converges (ex84_problem s) (ex79_names s) (ex84_all s) (b := 10) (s := 5) (by norm_num) (T0 := 3) (by norm_num)
  (d := ex85d) rfl rfl (ex84_fin s) () (1 / 100) (by norm_num)

example (s : ArgSort) := C85_averages (ex84_problem s) (ex79_names s) (ex84_all s) (b := 10) (s := 5) (by norm_num) (T0 := 3) (by norm_num)
  (d := ex85d) rfl rfl (ex84_fin s) ()

example := C85_posterior ex84q_start.choose_spec.choose_spec.2.1 ex79q_names ex84q_start.choose_spec.choose_spec.1 ex83_plain rfl
  (b := 10) (s := 5) (by norm_num) (T0 := 3) (by norm_num) (d := ex85d) rfl rfl ex84q_start.choose_spec.choose_spec.2.2 ()

/-- A second run of six iterations after a burn-in of four: it is completed, and nothing is saved. -/
example (c : Chain ℤ (List ℤ) Unit) (hc : 4 < c.total) : ∃ evs c', Chain.advance exCfg (4 : ℕ) 1
    (annealing exCfg 16 (Real.log 16 / (4 : ℕ)) (4 : ℕ) noHooks).beginIteration
    (annealing exCfg 16 (Real.log 16 / (4 : ℕ)) (4 : ℕ) noHooks).endIteration 6 (c.setTemp exCfg 16) (List.replicate (6 * 2 + 0) half) =
      (.ok evs, c', List.replicate 0 half) ∧ c'.saved = c.saved := by
  obtain ⟨evs, c', h⟩ := exAnneal 16 (Real.log 16 / (4 : ℕ)) (4 : ℕ) (4 : ℕ) 1 (by norm_num) 6 (c.setTemp exCfg 16) 0
  exact ⟨evs, c', h, C85_again (by norm_num) rfl rfl hc h⟩

end Examples

end BB.Props
