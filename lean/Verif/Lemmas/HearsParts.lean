import Verif.Lemmas.Hears
import Verif.Lemmas.OwnChain

/-!
# Functions that do not notice several groups of perturbations
-/

namespace BB.Lemmas

open BB Spec Props MeasureTheory ProbabilityTheory

section append

variable {X Θ Θ' : Type} [MeasurableSpace X] [MeasurableSpace Θ] [MeasurableSpace Θ'] {a b N : ℕ}
  {p : Scheme X Θ a} {q : Scheme X Θ' b} {e : Fin N ≃ Fin a ⊕ Fin b} {w : Fin N → ℝ} {wp : Fin a → ℝ} {wq : Fin b → ℝ} {g c : X → ℝ}

theorem hears_left [SFinite p.draws] [IsProbabilityMeasure q.draws] (hw : ∀ i, w i = Sum.elim wp wq (e i)) (h : Hears (append p q e) w g c) :
    Hears p wp g c := by
  intro j hj
  have h1 := h (e.symm (.inl j)) (by rw [hw, Equiv.apply_symm_apply]; exact hj)
  filter_upwards [h1] with x hx
  simp only [append, Equiv.apply_symm_apply, Sum.elim_inl, Sum.map_inl] at hx
  filter_upwards [Measure.ae_ae_of_ae_prod hx] with θ hθ
  exact hθ.exists.choose_spec

theorem hears_right [IsProbabilityMeasure p.draws] [SFinite q.draws] (hw : ∀ i, w i = Sum.elim wp wq (e i)) (hpr : q.prior = p.prior)
    (h : Hears (append p q e) w g c) : Hears q wq g c := by
  intro j hj
  have h1 := h (e.symm (.inr j)) (by rw [hw, Equiv.apply_symm_apply]; exact hj)
  rw [hpr]
  filter_upwards [h1] with x hx
  simp only [append, Equiv.apply_symm_apply, Sum.elim_inr, Sum.map_inr] at hx
  exact (Measure.ae_ae_of_ae_prod hx).exists.choose_spec

end append

section

variable {S σ X Θ Θ' : Type} [MeasurableSpace X] [MeasurableSpace Θ] [MeasurableSpace Θ']

/-- The perturbations satisfy the conditions of C09 with this prior, and `Q` is true of functions that do not notice them. -/
def PartQ (cfg : ChainCfg S σ) (prior : Measure X) (logLik : X → ℝ) (T : ℝ) (enc : Fin cfg.perturbs.length → S → Θ → List Draw)
    (draws : Measure Θ) (val : S → X) (inv : S → Prop) (r : X → X → Prop) (Q : (X → ℝ) → (X → ℝ) → Prop) : Prop :=
  ∃ p : Scheme X Θ cfg.perturbs.length, p.prior = prior ∧ p.draws = draws ∧ p.Ok (weight cfg) ∧ p.Lumps r ∧
    Reports cfg p logLik T enc val inv r ∧ ∀ g c, Hears p (weight cfg) g c → Q g c

variable {cfg cfg1 cfg2 : ChainCfg S σ} {prior : Measure X} {logLik : X → ℝ} {T : ℝ}
  {enc1 : Fin cfg1.perturbs.length → S → Θ → List Draw} {enc2 : Fin cfg2.perturbs.length → S → Θ' → List Draw}
  {draws1 : Measure Θ} {draws2 : Measure Θ'} {val : S → X} {inv : S → Prop} {r : X → X → Prop} {Q1 Q2 : (X → ℝ) → (X → ℝ) → Prop}

theorem Part.any (h : Part cfg1 prior logLik T enc1 draws1 val inv r) :
    PartQ cfg1 prior logLik T enc1 draws1 val inv r fun _ _ => True := by
  obtain ⟨p, h1, h2, h3, h4, h5⟩ := h
  exact ⟨p, h1, h2, h3, h4, h5, fun _ _ _ => trivial⟩

theorem PartQ.join (h : Joins cfg cfg1 cfg2) (h1 : PartQ cfg1 prior logLik T enc1 draws1 val inv r Q1)
    (h2 : PartQ cfg2 prior logLik T enc2 draws2 val inv r Q2) :
    PartQ cfg prior logLik T (h.draws enc1 enc2) (draws1.prod draws2) val inv r fun g c => Q1 g c ∧ Q2 g c := by
  obtain ⟨p, hp1, hp2, hp3, hp4, hp5, hp6⟩ := h1
  obtain ⟨q, hq1, hq2, hq3, hq4, hq5, hq6⟩ := h2
  have := hp3.prob
  have := hq3.prob
  refine ⟨append p q h.from, hp1, ?_, h.ok hp3 hq3 (hq1.trans hp1.symm), append_lumps hp3 hq3 hp4 hq4, h.reports hp5 hq5, fun g c hh =>
    ⟨hp6 g c (hears_left h.weight hh), hq6 g c (hears_right h.weight (hq1.trans hp1.symm) hh)⟩⟩
  rw [← hp2, ← hq2]
  rfl

theorem PartQ.mono (h1 : PartQ cfg1 prior logLik T enc1 draws1 val inv r Q1) {inv' : S → Prop} (hi : ∀ s, inv s ↔ inv' s) :
    PartQ cfg1 prior logLik T enc1 draws1 val inv' r Q1 := by
  rw [show inv' = inv from funext fun s => propext (hi s).symm]
  exact h1

end

section own

variable {X Θb Θv Θs : Type} [MeasurableSpace X] [MeasurableSpace Θb] [MeasurableSpace Θv] [MeasurableSpace Θs]
  {val : PSState → X} {logLik : X → ℝ} {prior : Measure X} {T : ℝ} {inv : PSState → Prop} {r : X → X → Prop}
  {births : Fin 2 → PSState → Θb → List Draw} {values : PSState → Θv → List Draw} {sites : PSState → Θs → List Draw}
  {lb : Measure Θb} {lv : Measure Θv} {ls : Measure Θs} {sp : Space} {name : String} {ps : List Prior} {w : ℝ}
  {Qb Qv Qs : (X → ℝ) → (X → ℝ) → Prop}

theorem lead_partQ {fs : List (PSFunc × ℝ)} (hfs : fs = [] ∨ fs = [(PSFunc.birth sp, (1 : ℝ)), (PSFunc.death sp, 1)])
    (hb : PartQ (funcsChain fs val logLik) prior logLik T (funcDraws fs val logLik (bdDraws births)) lb val inv r Qb)
    (hv : PartQ (funcsChain [(PSFunc.values name ps, w)] val logLik) prior logLik T (fun _ => values) lv val inv r Qv) :
    PartQ (funcsChain (fs ++ [(PSFunc.values name ps, w)]) val logLik) prior logLik T
      (funcDraws (fs ++ [(PSFunc.values name ps, w)]) val logLik (bvDraws births values)) (lb.prod lv) val inv r
      fun g c => Qb g c ∧ Qv g c := by
  have e2 : (fun _ => values) = funcDraws [(PSFunc.values name ps, w)] val logLik fun _ => values := rfl
  rw [e2] at hv
  have := hb.join (joins_funcs fs [(PSFunc.values name ps, w)] val logLik) hv
  rwa [joins_draws val logLik fs _ _ _ (bvDraws births values) (fun f hf s θ => by
    rcases hfs with rfl | rfl
    · cases hf
    · simp only [List.mem_cons, List.not_mem_nil, or_false] at hf
      rcases hf with rfl | rfl <;> rfl) (fun f hf s θ => by
    rw [List.mem_singleton.1 hf]
    rfl)] at this

theorem own_partQ {fs c : List (PSFunc × ℝ)}
    (hfs : fs = [] ∨ fs = [(PSFunc.birth sp, (1 : ℝ)), (PSFunc.death sp, 1)])
    (hc : c = [] ∨ c = [(PSFunc.site sp, 1)]) (hown : sp.ownFuncs = fs ++ [(PSFunc.values name ps, 3)] ++ c)
    (hb : PartQ (funcsChain fs val logLik) prior logLik T (funcDraws fs val logLik (bdDraws births)) lb val inv r Qb)
    (hv : PartQ (funcsChain [(PSFunc.values name ps, 3)] val logLik) prior logLik T (fun _ => values) lv val inv r Qv)
    (hs : PartQ (funcsChain c val logLik) prior logLik T (fun _ => sites) ls val inv r Qs) :
    PartQ (ownChain sp val logLik) prior logLik T (funcDraws sp.ownFuncs val logLik (ownDraws births values sites))
      ((lb.prod lv).prod ls) val inv r fun g c => (Qb g c ∧ Qv g c) ∧ Qs g c := by
  unfold ownChain
  generalize sp.ownFuncs = gs at hown
  subst hown
  have hj := joins_funcs (fs ++ [(PSFunc.values name ps, 3)]) c val logLik
  have hl := lead_partQ hfs hb hv
  have h := hl.join hj hs
  have e := all_draws (val := val) (logLik := logLik) (births := births) (values := values) (sites := sites)
    (lead_no_site (name := name) (ps := ps) (w := 3) hfs) (c := c) (by
      rcases hc with rfl | rfl
      · exact fun f hf => nomatch hf
      · exact fun f hf => ⟨sp, by rw [List.mem_singleton.1 hf]⟩)
  have e2 : hj.draws (funcDraws (fs ++ [(PSFunc.values name ps, 3)]) val logLik (bvDraws births values)) (fun _ => sites) =
    funcDraws (fs ++ [(PSFunc.values name ps, 3)] ++ c) val logLik (ownDraws births values sites) := e
  rw [e2] at h
  exact h

end own

end BB.Lemmas
