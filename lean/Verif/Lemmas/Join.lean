import Verif.Lemmas.Append
import Verif.Props.C09_Balance

/-!
# A chain that has the perturbations of two chains
-/

namespace BB.Lemmas

open BB Spec Props MeasureTheory

section

variable {S σ X Θ Θ' : Type} [MeasurableSpace X] [MeasurableSpace Θ] [MeasurableSpace Θ']

/-- The perturbations of `cfg` are those of `cfg1` followed by those of `cfg2`. -/
structure Joins (cfg cfg1 cfg2 : ChainCfg S σ) : Prop where
  perturbs : cfg.perturbs = cfg1.perturbs ++ cfg2.perturbs
  weights : cfg.weights = cfg1.weights ++ cfg2.weights
  llr1 : cfg1.llr = cfg.llr
  llr2 : cfg2.llr = cfg.llr
  len1 : cfg1.perturbs.length = cfg1.weights.length
  len2 : cfg2.perturbs.length = cfg2.weights.length

variable {cfg cfg1 cfg2 : ChainCfg S σ}

theorem Joins.length (h : Joins cfg cfg1 cfg2) : cfg.perturbs.length = cfg1.perturbs.length + cfg2.perturbs.length := by
  rw [h.perturbs, List.length_append]

theorem Joins.len (h : Joins cfg cfg1 cfg2) : cfg.perturbs.length = cfg.weights.length := by
  rw [h.length, h.weights, List.length_append, h.len1, h.len2]

/-- Where a perturbation comes from. -/
def Joins.from (h : Joins cfg cfg1 cfg2) :
    Fin cfg.perturbs.length ≃ Fin cfg1.perturbs.length ⊕ Fin cfg2.perturbs.length :=
  (finCongr h.length).trans finSumFinEquiv.symm

theorem Joins.cases (h : Joins cfg cfg1 cfg2) (i : Fin cfg.perturbs.length) :
    (∃ j, h.from i = .inl j ∧ i.val = j.val) ∨ ∃ j, h.from i = .inr j ∧ i.val = cfg1.perturbs.length + j.val := by
  unfold Joins.from
  rcases hc : finSumFinEquiv.symm (Fin.cast h.length i) with j | j
  · refine .inl ⟨j, hc, ?_⟩
    have := (Equiv.symm_apply_eq _).1 hc
    have := congrArg Fin.val this
    simpa using this
  · refine .inr ⟨j, hc, ?_⟩
    have := (Equiv.symm_apply_eq _).1 hc
    have := congrArg Fin.val this
    simpa using this

theorem Joins.weight (h : Joins cfg cfg1 cfg2) (i : Fin cfg.perturbs.length) :
    Props.weight cfg i = Sum.elim (Props.weight cfg1) (Props.weight cfg2) (h.from i) := by
  unfold Props.weight
  rw [h.weights]
  rcases h.cases i with ⟨j, h1, h2⟩ | ⟨j, h1, h2⟩
  · rw [h1, h2, Sum.elim_inl]
    exact List.getD_append _ _ _ _ (by have := j.2; have := h.len1; omega)
  · rw [h1, h2, Sum.elim_inr, List.getD_append_right _ _ _ _ (by have := h.len1; omega), h.len1, Nat.add_sub_cancel_left]

theorem Joins.sum (h : Joins cfg cfg1 cfg2) : ∑ i, Props.weight cfg i = ∑ i, Props.weight cfg1 i + ∑ i, Props.weight cfg2 i := by
  rw [sum_weight cfg h.len, sum_weight cfg1 h.len1, sum_weight cfg2 h.len2, h.weights, List.sum_append]

/-- The draws of the perturbations. -/
def Joins.draws (h : Joins cfg cfg1 cfg2) (enc1 : Fin cfg1.perturbs.length → S → Θ → List Draw)
    (enc2 : Fin cfg2.perturbs.length → S → Θ' → List Draw) (i : Fin cfg.perturbs.length) (s : S) (θ : Θ × Θ') : List Draw :=
  Sum.elim (fun j => enc1 j s θ.1) (fun j => enc2 j s θ.2) (h.from i)

theorem Joins.reports (h : Joins cfg cfg1 cfg2) {p : Scheme X Θ cfg1.perturbs.length} {q : Scheme X Θ' cfg2.perturbs.length}
    [IsProbabilityMeasure p.draws] [IsProbabilityMeasure q.draws]
    {logLik : X → ℝ} {T : ℝ} {enc1 : Fin cfg1.perturbs.length → S → Θ → List Draw}
    {enc2 : Fin cfg2.perturbs.length → S → Θ' → List Draw} {val : S → X} {inv : S → Prop} {r : X → X → Prop}
    (h1 : Reports cfg1 p logLik T enc1 val inv r) (h2 : Reports cfg2 q logLik T enc2 val inv r) :
    Reports cfg (append p q h.from) logLik T (h.draws enc1 enc2) val inv r where
  likelihood := fun s new hs hn => by
    have := h1.likelihood s new hs hn
    rw [h.llr1] at this
    exact this
  proposal := fun i s hs => by
    rcases h.cases i with ⟨j, e1, e2⟩ | ⟨j, e1, e2⟩
    · have e : cfg.perturbs[i] = cfg1.perturbs[j] := by
        refine (List.getElem_eq_iff i.is_lt).2 ?_
        rw [e2, h.perturbs, List.getElem?_append_left j.2]
        exact List.getElem?_eq_getElem j.2
      simp only [append, Joins.draws, e1, Sum.elim_inl, Sum.map_inl, Equiv.apply_symm_apply]
      rw [e]
      exact Measure.quasiMeasurePreserving_fst.ae (h1.proposal j s hs)
    · have e : cfg.perturbs[i] = cfg2.perturbs[j] := by
        refine (List.getElem_eq_iff i.is_lt).2 ?_
        rw [e2, h.perturbs, List.getElem?_append_right (by omega), Nat.add_sub_cancel_left]
        exact List.getElem?_eq_getElem j.2
      simp only [append, Joins.draws, e1, Sum.elim_inr, Sum.map_inr, Equiv.apply_symm_apply]
      rw [e]
      exact Measure.quasiMeasurePreserving_snd.ae (h2.proposal j s hs)

theorem Joins.ok (h : Joins cfg cfg1 cfg2) {p : Scheme X Θ cfg1.perturbs.length} {q : Scheme X Θ' cfg2.perturbs.length}
    (hp : p.Ok (Props.weight cfg1)) (hq : q.Ok (Props.weight cfg2)) (hprior : q.prior = p.prior) :
    (append p q h.from).Ok (Props.weight cfg) := append_ok hp hq hprior h.weight

theorem bare_reports {p : Scheme X Θ cfg.perturbs.length} {logLik : X → ℝ} {T : ℝ}
    {enc : Fin cfg.perturbs.length → S → Θ → List Draw} {val : S → X} {inv : S → Prop} {r : X → X → Prop}
    (h : Reports cfg p logLik T enc val inv r) : Reports cfg (bare p) logLik T enc val inv r :=
  ⟨h.proposal, h.likelihood⟩

/-- A property of the models that no perturbation changes. -/
theorem reports_and {p : Scheme X Θ cfg.perturbs.length} {logLik : X → ℝ} {T : ℝ}
    {enc : Fin cfg.perturbs.length → S → Θ → List Draw} {val : S → X} {inv : S → Prop} {r : X → X → Prop}
    (h : Reports cfg p logLik T enc val inv r) {Q : X → Prop} (hQ : ∀ x y, r x y → (Q x ↔ Q y))
    (hmove : ∀ i x, Q x → ∀ᵐ θ ∂p.draws, Q (p.move i x θ)) :
    Reports cfg p logLik T enc val (fun s => inv s ∧ Q (val s)) r where
  likelihood := by
    rintro s new ⟨h1, h2⟩ ⟨h3, h4⟩
    obtain ⟨s', new', e1, e2, e3, e4, e5⟩ := h.likelihood s new h1 h3
    exact ⟨s', new', e1, ⟨e2, (hQ _ _ e4).2 h2⟩, ⟨e3, (hQ _ _ e5).2 h4⟩, e4, e5⟩
  proposal := by
    rintro i s ⟨h1, h2⟩
    filter_upwards [h.proposal i s h1, hmove i _ h2] with θ hθ hθ'
    obtain ⟨new, lpr, e1, e2, e3, e4⟩ := hθ
    exact ⟨new, lpr, e1, ⟨e2, (hQ _ _ e3).2 hθ'⟩, e3, e4⟩

end

end BB.Lemmas
